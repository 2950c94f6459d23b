import Verif.Hinet.RhombProps

/-!
# Model of the extension `switchboard_factory` (mdp/hinet/switchboard_factory.py), C285-C288
-/

namespace Mdp.Switchboard

/-- A parameter that ends with `_xy`: one number or a pair. -/
inductive Arg where
  | one (n : Nat)
  | two (x y : Nat)

/-- `to_2tuple` (mdp/hinet/switchboard.py 208-214). -/
def Arg.xy : Arg → XY
  | .one n => ⟨n, n⟩
  | .two x y => ⟨x, y⟩

/-- A switchboard of one of the classes of the factory, with `out_channels_xy` or `long_out_channels_xy`. -/
inductive Board where
  | channel (s : CSB)
  | rect (s : CSB) (out : XY)
  | doubleRect (s : CSB) (long : XY)
  | doubleRhomb (s : CSB) (out : XY)

/-- The attributes of `ChannelSwitchboard`. -/
def Board.csb : Board → CSB
  | .channel s | .rect s _ | .doubleRect s _ | .doubleRhomb s _ => s

/-- `Rectangular2dSwitchboard(...)` (mdp/hinet/switchboard.py 242-333) with `out_channels_xy` (299). -/
def newRect (inc field spacing : Arg) (d : Nat) (ig : Bool) : Except Err Board :=
  match Rect2d.new inc.xy field.xy spacing.xy d ig with
  | .error e => .error e
  | .ok s => .ok (.rect s ⟨(inc.xy.x - field.xy.x) / spacing.xy.x + 1, (inc.xy.y - field.xy.y) / spacing.xy.y + 1⟩)

/-- `DoubleRect2dSwitchboard(...)` (381-503) with `long_out_channels_xy` (451). -/
def newDoubleRect (inc field : Arg) (d : Nat) (ig : Bool) : Except Err Board :=
  match DoubleRect2d.new inc.xy field.xy d ig with
  | .error e => .error e
  | .ok s => .ok (.doubleRect s ⟨inc.xy.x / field.xy.x, inc.xy.y / field.xy.y⟩)

/-- `DoubleRhomb2dSwitchboard(...)` (534-633) with `out_channels_xy` (587). -/
def newDoubleRhomb (long : Arg) (D d : Nat) : Except Err Board :=
  match DoubleRhomb2d.new long.xy D d with
  | .error e => .error e
  | .ok s =>
    let short : Int := if long.xy.x < long.xy.y then 1 else 0
    .ok (.doubleRhomb s ⟨(Int.fdiv (2 * (long.xy.x - (1 - short) - D)) D + 1).toNat, (Int.fdiv (2 * (long.xy.y - short - D)) D + 1).toNat⟩)

/-- `get_2d_image_switchboard` (17-24). -/
def imageBoard (size : Arg) : Except Err Board := newRect size (.one 1) (.one 1) 1 false

/-- The class on which `create_switchboard` is called. -/
inductive Cls where
  | channel | rect | doubleRect | doubleRhomb

/-- The keys of `free_params` that a class reads. -/
structure Params where
  field : Option Arg
  spacing : Option Arg
  ignoreCover : Option Bool
  fieldSize : Option Nat
deriving Inhabited

inductive FErr where
  | sb (e : Err)
  /-- KeyError -/
  | key
  /-- TypeError: unexpected keyword argument -/
  | type

/-- `isinstance` with the entries of `compatible_pre_switchboards` (44, 89-90, 109-110, 129). -/
def Cls.compatible : Cls → Board → Bool
  | .channel, _ => true
  | .rect, .rect _ _ | .rect, .doubleRhomb _ _ => true
  | .rect, _ => false
  | .doubleRect, .rect _ _ | .doubleRect, .doubleRhomb _ _ => true
  | .doubleRect, _ => false
  | .doubleRhomb, .doubleRect _ _ => true
  | .doubleRhomb, _ => false

/-- `out_channels_xy`, for the boards that have it. -/
def Board.out : Board → Option XY
  | .rect _ o | .doubleRhomb _ o => some o
  | _ => none

/-- `create_switchboard` (46-70) with `_get_switchboard_kwargs` of the class (72-84, 92-103, 112-122, 131-138): the result, and the
dictionary `free_params` of the caller after the call. -/
def Cls.create (cls : Cls) (p : Params) (prev : Board) (prevOut : Nat) : Except FErr Board × Params :=
  if cls.compatible prev = false then (.error (.sb .switchboard), p)
  else if prev.csb.outputChannels = 0 then (.error (.sb .zeroDivision), p)
  else
    let d := prevOut / prev.csb.outputChannels
    match cls with
    | .channel =>
      (match Channel.new prevOut ((List.range prevOut).map fun (i : Nat) => (i : Int)) prevOut d with
        | .error e => .error (.sb e)
        | .ok s => .ok (.channel s), p)
    | .rect =>
      let p := { p with ignoreCover := some (p.ignoreCover.getD true) }
      (match prev.out, p.field, p.spacing, p.ignoreCover with
        | some o, some f, some s, some ig =>
          match newRect (.two o.x o.y) f s d ig with
          | .error e => .error (.sb e)
          | .ok b => .ok b
        | _, _, _, _ => .error .key, p)
    | .doubleRect =>
      let p := { p with ignoreCover := some (p.ignoreCover.getD true) }
      (match prev.out, p.field, p.ignoreCover with
        | some o, some f, some ig =>
          match newDoubleRect (.two o.x o.y) f d ig with
          | .error e => .error (.sb e)
          | .ok b => .ok b
        | _, _, _ => .error .key, p)
    | .doubleRhomb =>
      -- the key is `long_out_channels_xy`, which is not an argument of the constructor
      (match p.fieldSize with
        | some _ => .error .type
        | none => .error .key, p)

/-! ## Specification -/

/-- A board that one of the constructors has made. -/
inductive Made : Board → Prop where
  | channel {n c od d s} (h : Channel.new n c od d = .ok s) : Made (.channel s)
  | rect {inc f sp d ig b} (h : newRect inc f sp d ig = .ok b) : Made b
  | doubleRect {inc f d ig b} (h : newDoubleRect inc f d ig = .ok b) : Made b
  | doubleRhomb {long D d b} (h : newDoubleRhomb long D d = .ok b) : Made b

/-! ## Proofs -/

theorem newRect_get {inc f sp : Arg} {d : Nat} {ig : Bool} {b : Board} (h : newRect inc f sp d ig = .ok b) :
    ∃ s, Rect2d.new inc.xy f.xy sp.xy d ig = .ok s ∧
      b = .rect s ⟨(inc.xy.x - f.xy.x) / sp.xy.x + 1, (inc.xy.y - f.xy.y) / sp.xy.y + 1⟩ := by
  simp only [newRect] at h
  split at h
  · cases h
  · next s hs => exact ⟨s, hs, (Except.ok.inj h).symm⟩

theorem newDoubleRect_get {inc f : Arg} {d : Nat} {ig : Bool} {b : Board} (h : newDoubleRect inc f d ig = .ok b) :
    ∃ s, DoubleRect2d.new inc.xy f.xy d ig = .ok s ∧ b = .doubleRect s ⟨inc.xy.x / f.xy.x, inc.xy.y / f.xy.y⟩ := by
  simp only [newDoubleRect] at h
  split at h
  · cases h
  · next s hs => exact ⟨s, hs, (Except.ok.inj h).symm⟩

theorem newDoubleRhomb_get {long : Arg} {D d : Nat} {b : Board} (h : newDoubleRhomb long D d = .ok b) :
    ∃ s o, DoubleRhomb2d.new long.xy D d = .ok s ∧ b = .doubleRhomb s o := by
  simp only [newDoubleRhomb] at h
  split at h
  · cases h
  · next s hs => exact ⟨s, _, hs, (Except.ok.inj h).symm⟩

/-- The number of output channels of a board with a grid. -/
theorem grid_count {b : Board} (hb : Made b) {o : XY} (ho : b.out = some o) : b.csb.outputChannels = o.y * o.x ∧ 0 < o.x ∧ 0 < o.y := by
  cases hb with
  | channel h => cases ho
  | rect h =>
    obtain ⟨s, hs, rfl⟩ := newRect_get h
    cases ho
    exact ⟨(rect_get hs).2.2.2.2.1, by simp, by simp⟩
  | doubleRect h =>
    obtain ⟨s, hs, rfl⟩ := newDoubleRect_get h
    cases ho
  | @doubleRhomb long D d _ h =>
    simp only [newDoubleRhomb] at h
    split at h
    · cases h
    next s hs =>
    cases h
    cases ho
    rcases rhomb_cases long.xy D d with ⟨-, e, h2⟩ | ⟨⟨-, hD, hDe, gx, -, gy, -⟩, s', nx, ny, h2, -, -, -, hc, kx, ky, -⟩
    · rw [hs] at h2; cases h2
    rw [hs] at h2
    cases h2
    have hss : (if long.xy.x < long.xy.y then (1 : Int) else 0) = startShort long.xy := rfl
    have hst := startShort_cases long.xy
    have hDi : (0 : Int) < D := by omega
    have key : ∀ (r : Int) (o : Nat), 0 ≤ r → (o < (2 * r / D + 1).toNat ↔ (1 + o) * D ≤ 2 * r + (D : Int)) := by
      intro r o hr
      have hnn : 0 ≤ 2 * r / (D : Int) := Int.ediv_nonneg (by omega) (by omega)
      have e : (1 + (o : Int)) * D = o * D + D := by ring
      rw [e]
      constructor
      · intro h
        have : (o : Int) ≤ 2 * r / D := by omega
        rw [Int.le_ediv_iff_mul_le hDi] at this
        omega
      · intro h
        have : (o : Int) ≤ 2 * r / D := by
          rw [Int.le_ediv_iff_mul_le hDi]
          omega
        omega
    have evD : ∀ i : Nat, ((1 + (i : Int)) * D) % 2 = 0 := by
      intro i
      rw [Int.mul_emod, show (D : Int) % 2 = 0 by omega]
      simp
    have same : ∀ a b : Nat, (∀ i, i < a ↔ i < b) → a = b := fun a b h => by
      have h1 := h a
      have h2 := h b
      omega
    simp only [hss]
    rw [Int.fdiv_eq_ediv_of_nonneg _ (by omega), Int.fdiv_eq_ediv_of_nonneg _ (by omega)]
    have ex : nx = (2 * ((long.xy.x : Int) - (1 - startShort long.xy) - D) / D + 1).toNat := same _ _ fun i => by
      rw [kx, key _ _ (by omega), centerX]
      have hq := evD i
      generalize (1 + (i : Int)) * D = q at hq ⊢
      omega
    have ey : ny = (2 * ((long.xy.y : Int) - startShort long.xy - D) / D + 1).toNat := same _ _ fun i => by
      rw [ky, key _ _ (by omega), centerY]
      have hq := evD i
      generalize (1 + (i : Int)) * D = q at hq ⊢
      omega
    have px : 0 ≤ 2 * ((long.xy.x : Int) - (1 - startShort long.xy) - D) / D := Int.ediv_nonneg (by omega) (by omega)
    have py : 0 ≤ 2 * ((long.xy.y : Int) - startShort long.xy - D) / D := Int.ediv_nonneg (by omega) (by omega)
    rw [← ex, ← ey]
    exact ⟨hc, by omega, by omega⟩

theorem made_pos {b : Board} (hb : Made b) : 0 < b.csb.outputChannels := by
  have main : ∀ {n c od d s}, Channel.new n c od d = .ok s → 0 < s.outputChannels := by
    intro n c od d s h
    obtain ⟨-, -, -, -, h1, -, h2, -⟩ := channel_fields h
    rcases Nat.eq_zero_or_pos s.outputChannels with h0 | h0
    · rw [h0, Nat.zero_mul] at h2
      simp [Switchboard.new, h2] at h1
    · exact h0
  cases hb with
  | channel h => exact main h
  | rect h =>
    obtain ⟨s, hs, rfl⟩ := newRect_get h
    have := grid_count (.rect h) (o := _) rfl
    rw [this.1]
    exact Nat.mul_pos this.2.2 this.2.1
  | @doubleRect inc f d ig _ h =>
    obtain ⟨s, hs, rfl⟩ := newDoubleRect_get h
    rcases double_cases inc.xy f.xy d ig with ⟨-, e, h2⟩ | ⟨⟨-, -, g1, g2, g3, g4, -⟩, s', h2, -, -, h3, -⟩
    · rw [hs] at h2; cases h2
    rw [hs] at h2
    cases h2
    show 0 < s.outputChannels
    rw [h3]
    have := Nat.mul_pos (Nat.div_pos g4 g3) (Nat.div_pos g2 g1)
    omega
  | doubleRhomb h =>
    obtain ⟨s, o, hs, rfl⟩ := newDoubleRhomb_get h
    have := grid_count (.doubleRhomb h) (o := _) rfl
    rw [this.1]
    exact Nat.mul_pos this.2.2 this.2.1

theorem create_rect_get {p p' : Params} {prev b : Board} {n : Nat} (h : Cls.rect.create p prev n = (.ok b, p')) :
    ∃ o f s, prev.out = some o ∧ p.field = some f ∧ p.spacing = some s ∧
      newRect (.two o.x o.y) f s (n / prev.csb.outputChannels) (p.ignoreCover.getD true) = .ok b := by
  simp only [Cls.create] at h
  split at h
  · cases h
  split at h
  · cases h
  have h1 := congrArg Prod.fst h
  simp only at h1
  split at h1
  · next o f s ig ho hf hs hi =>
    split at h1
    · cases h1
    · next b' hb =>
      cases h1
      cases hi
      exact ⟨o, f, s, ho, hf, hs, hb⟩
  · cases h1

theorem create_double_get {p p' : Params} {prev b : Board} {n : Nat} (h : Cls.doubleRect.create p prev n = (.ok b, p')) :
    ∃ o f, prev.out = some o ∧ p.field = some f ∧
      newDoubleRect (.two o.x o.y) f (n / prev.csb.outputChannels) (p.ignoreCover.getD true) = .ok b := by
  simp only [Cls.create] at h
  split at h
  · cases h
  split at h
  · cases h
  have h1 := congrArg Prod.fst h
  simp only at h1
  split at h1
  · next o f ig ho hf hi =>
    split at h1
    · cases h1
    · next b' hb =>
      cases h1
      cases hi
      exact ⟨o, f, ho, hf, hb⟩
  · cases h1

theorem double_channel {inc field : XY} {d : Nat} {ig : Bool} {s : CSB} (h : DoubleRect2d.new inc field d ig = .ok s) :
    ∃ n l od, Channel.new n l od d = .ok s := by
  have ite : ∀ {c : Prop} [Decidable c] {e : Err} {r : Except Err CSB}, (if c then .error e else r) = .ok s → r = .ok s := by
    intro c _ e r h
    split at h
    · cases h
    · exact h
  unfold DoubleRect2d.new at h
  have h := ite (ite h)
  have h := ite (ite (ite (ite (ite (ite (ite (ite h)))))))
  dsimp only at h
  split at h
  · cases h
  split at h
  · cases h
  exact ⟨_, _, _, h⟩

/-- C285: whatever the factory makes for a layer of nodes with `m` outputs each has the outputs of the layer as its inputs, one input
channel of size `m` for every node. -/
theorem factory_fits {cls : Cls} {p p' : Params} {prev b : Board} (hp : Made prev) {m : Nat}
    (h : cls.create p prev (m * prev.csb.outputChannels) = (.ok b, p')) :
    b.csb.inputDim = m * prev.csb.outputChannels ∧ b.csb.inChannelDim = m ∧ b.csb.inputChannels = prev.csb.outputChannels ∧ Made b := by
  have hpos := made_pos hp
  cases cls with
  | channel =>
    simp only [Cls.create] at h
    split at h
    · cases h
    split at h
    · cases h
    rw [Nat.mul_div_cancel _ hpos] at h
    have h1 := congrArg Prod.fst h
    simp only at h1
    split at h1
    · cases h1
    · next s hs =>
      cases h1
      obtain ⟨a1, a2, a3, a4, -, -, -, a5, a6⟩ := channel_fields hs
      refine ⟨a1, a4, ?_, .channel hs⟩
      rw [Nat.mul_comm] at a6
      exact (Nat.eq_of_mul_eq_mul_right a5 a6).symm
  | rect =>
    obtain ⟨o, f, s, ho, -, -, hb⟩ := create_rect_get h
    rw [Nat.mul_div_cancel _ hpos] at hb
    obtain ⟨c, hc, rfl⟩ := newRect_get hb
    obtain ⟨-, a1, a2, -, -, a3, -⟩ := rect_get hc
    have := (grid_count hp ho).1
    refine ⟨?_, a2, ?_, .rect hb⟩
    · show c.inputDim = _
      rw [a1, this]
      simp only [Arg.xy]
      ring
    · show c.inputChannels = _
      rw [a3, this]
      exact Nat.mul_comm _ _
  | doubleRect =>
    obtain ⟨o, f, ho, -, hb⟩ := create_double_get h
    rw [Nat.mul_div_cancel _ hpos] at hb
    obtain ⟨c, hc, rfl⟩ := newDoubleRect_get hb
    have hg := (grid_count hp ho).1
    rcases double_cases (Arg.two o.x o.y).xy f.xy m (p.ignoreCover.getD true) with ⟨-, e, h2⟩ | ⟨⟨-, -, -, -, -, -, hm, -⟩, s', h2, a1, -⟩
    · rw [hc] at h2; cases h2
    rw [hc] at h2
    cases h2
    obtain ⟨n, l, od, hch⟩ := double_channel hc
    obtain ⟨b1, -, -, b2, -, -, -, b3, b4⟩ := channel_fields hch
    have e : c.inputDim = m * prev.csb.outputChannels := by
      rw [a1, hg]
      simp only [Arg.xy]
      ring
    refine ⟨e, b2, ?_, .doubleRect hb⟩
    rw [← b1, e, Nat.mul_comm] at b4
    exact (Nat.eq_of_mul_eq_mul_right b3 b4).symm
  | doubleRhomb =>
    simp only [Cls.create] at h
    split at h
    · cases h
    split at h
    · cases h
    split at h <;> cases h

/-- C285: the outputs of the previous layer fit exactly if their number is a multiple of the number of its channels. -/
theorem factory_fits_iff {p p' : Params} {prev b : Board} (hp : Made prev) {n : Nat} {cls : Cls} (hc : cls = .rect ∨ cls = .doubleRect)
    (h : cls.create p prev n = (.ok b, p')) : b.csb.inputDim = n ↔ prev.csb.outputChannels ∣ n := by
  have key : b.csb.inputDim = n / prev.csb.outputChannels * prev.csb.outputChannels := by
    rcases hc with rfl | rfl
    · obtain ⟨o, f, s, ho, -, -, hb⟩ := create_rect_get h
      obtain ⟨c, hc, rfl⟩ := newRect_get hb
      show c.inputDim = _
      rw [(rect_get hc).2.1, (grid_count hp ho).1]
      simp only [Arg.xy]
      ring
    · obtain ⟨o, f, ho, -, hb⟩ := create_double_get h
      obtain ⟨c, hc, rfl⟩ := newDoubleRect_get hb
      rcases double_cases (Arg.two o.x o.y).xy f.xy (n / prev.csb.outputChannels) (p.ignoreCover.getD true) with ⟨-, e, h2⟩ | ⟨-, s', h2, a1, -⟩
      · rw [hc] at h2; cases h2
      rw [hc] at h2
      cases h2
      show c.inputDim = _
      rw [a1, (grid_count hp ho).1]
      simp only [Arg.xy]
      ring
  rw [key]
  constructor
  · intro e
    exact ⟨n / prev.csb.outputChannels, by rw [Nat.mul_comm]; exact e.symm⟩
  · exact fun e => Nat.div_mul_cancel e

/-- The entries of a channel. -/
theorem rect_mem {inc field sp : XY} {d : Nat} {ig : Bool} {s : CSB} (h : Rect2d.new inc field sp d ig = .ok s) {xo yo : Nat}
    (hx : xo < (inc.x - field.x) / sp.x + 1) (hy : yo < (inc.y - field.y) / sp.y + 1) (v : Int) :
    v ∈ s.outChannelInput (yo * ((inc.x - field.x) / sp.x + 1) + xo) ↔
      ∃ dx < field.x, ∃ dy < field.y, ∃ k < d, v = (((yo * sp.y + dy) * inc.x + (xo * sp.x + dx)) * d + k : Nat) := by
  obtain ⟨⟨g1, g2, g3, g4, g5, g6, g7, -⟩, -⟩ := rect_get h
  obtain ⟨nx, ny, k1, k2, -, -, h3⟩ := rect_blocks h
  have same : ∀ a b : Nat, (∀ i, i < a ↔ i < b) → a = b := fun a b h => by
    have h1 := h a
    have h2 := h b
    omega
  have ex : nx = (inc.x - field.x) / sp.x + 1 := same _ _ fun i => by rw [k1, field_fits g5 g2]
  have ey : ny = (inc.y - field.y) / sp.y + 1 := same _ _ fun i => by rw [k2, field_fits g6 g4]
  subst ex ey
  obtain ⟨h4, h5⟩ := h3 xo hx yo hy
  constructor
  · intro hv
    obtain ⟨i, hi, rfl⟩ := List.getElem_of_mem hv
    rw [h4] at hi
    have e1 : i / d < field.y * field.x := Nat.div_lt_of_lt_mul (by rw [Nat.mul_comm]; exact hi)
    have e2 : i / d / field.x < field.y := Nat.div_lt_of_lt_mul (by rw [Nat.mul_comm]; exact e1)
    refine ⟨i / d % field.x, Nat.mod_lt _ g1, i / d / field.x, e2, i % d, Nat.mod_lt _ g7, ?_⟩
    have h6 := h5 _ (Nat.mod_lt (i / d) g1) _ e2 _ (Nat.mod_lt i g7)
    rw [Nat.div_add_mod', Nat.div_add_mod', List.getElem?_eq_getElem (by rw [h4]; exact hi)] at h6
    exact Option.some.inj h6
  · rintro ⟨dx, hdx, dy, hdy, k, hk, rfl⟩
    exact List.mem_of_getElem? (h5 dx hdx dy hdy k hk)

/-- C286: channel `(xo, yo)` of the new board is connected with component `k` of the node `(x, y)` of the previous layer exactly if the
node is in its field. -/
theorem factory_route {p p' : Params} {prev b : Board} (hp : Made prev) {m : Nat}
    (h : Cls.rect.create p prev (m * prev.csb.outputChannels) = (.ok b, p')) :
    ∃ (o o' : XY) (f s : Arg), prev.out = some o ∧ b.out = some o' ∧ p.field = some f ∧ p.spacing = some s ∧
      prev.csb.outputChannels = o.y * o.x ∧ b.csb.outputChannels = o'.y * o'.x ∧
      (∀ xo, xo < o'.x ↔ xo * s.xy.x + f.xy.x ≤ o.x) ∧ (∀ yo, yo < o'.y ↔ yo * s.xy.y + f.xy.y ≤ o.y) ∧
      ∀ xo < o'.x, ∀ yo < o'.y, ∀ x < o.x, ∀ y < o.y, ∀ k < m,
        ((((y * o.x + x) * m + k : Nat) : Int) ∈ b.csb.outChannelInput (yo * o'.x + xo) ↔
          (xo * s.xy.x ≤ x ∧ x < xo * s.xy.x + f.xy.x) ∧ yo * s.xy.y ≤ y ∧ y < yo * s.xy.y + f.xy.y) := by
  obtain ⟨o, f, s, ho, hf, hs, hb⟩ := create_rect_get h
  rw [Nat.mul_div_cancel _ (made_pos hp)] at hb
  have hb2 := hb
  obtain ⟨c, hc, rfl⟩ := newRect_get hb
  obtain ⟨⟨g1, g2, g3, g4, g5, g6, g7, -⟩, -⟩ := rect_get hc
  refine ⟨o, _, f, s, ho, rfl, hf, hs, (grid_count hp ho).1, (grid_count (.rect hb2) rfl).1, field_fits g5 g2, field_fits g6 g4, ?_⟩
  intro xo hxo yo hyo x hx y hy k hk
  have h1 := (field_fits g5 g2 xo).1 hxo
  have h2 := (field_fits g6 g4 yo).1 hyo
  show _ ∈ c.outChannelInput _ ↔ _
  rw [rect_mem hc hxo hyo]
  constructor
  · rintro ⟨dx, hdx, dy, hdy, k', hk', e⟩
    have e' : inIdx o.x m x y k = inIdx o.x m (xo * s.xy.x + dx) (yo * s.xy.y + dy) k' := by exact_mod_cast e
    have e1 : (Arg.two o.x o.y).xy.x = o.x := rfl
    obtain ⟨rfl, rfl, -⟩ := inIdx_inj e' hx hk (by omega) hk'
    omega
  · rintro ⟨⟨a1, a2⟩, a3, a4⟩
    refine ⟨x - xo * s.xy.x, by omega, y - yo * s.xy.y, by omega, k, hk, ?_⟩
    rw [Nat.add_sub_cancel' a1, Nat.add_sub_cancel' a3]
    rfl

theorem reach {s1 f1 s2 f2 xo x : Nat} (hs : 0 < s1) (h1 : s1 ≤ f1) (h2 : 0 < f2) :
    (∃ X, (xo * s2 ≤ X ∧ X < xo * s2 + f2) ∧ X * s1 ≤ x ∧ x < X * s1 + f1) ↔
      xo * s2 * s1 ≤ x ∧ x < xo * s2 * s1 + ((f2 - 1) * s1 + f1) := by
  constructor
  · rintro ⟨X, ⟨a1, a2⟩, a3, a4⟩
    have b1 : xo * s2 * s1 ≤ X * s1 := Nat.mul_le_mul_right _ a1
    have b2 : X * s1 ≤ (xo * s2 + (f2 - 1)) * s1 := Nat.mul_le_mul_right _ (by omega)
    rw [Nat.add_mul] at b2
    omega
  · rintro ⟨a1, a2⟩
    obtain ⟨r, rfl⟩ := Nat.exists_eq_add_of_le a1
    by_cases hr : r / s1 ≤ f2 - 1
    · refine ⟨xo * s2 + r / s1, ⟨Nat.le_add_right _ _, Nat.add_lt_add_left (by omega) _⟩, ?_⟩
      rw [Nat.add_mul]
      have := Nat.div_add_mod' r s1
      have := Nat.mod_lt r hs
      omega
    · refine ⟨xo * s2 + (f2 - 1), ⟨by omega, by omega⟩, ?_⟩
      rw [Nat.add_mul]
      have : (f2 - 1) * s1 ≤ r := by
        rw [← Nat.le_div_iff_mul_le hs]
        omega
      omega

/-- C286: the receptive field over two layers: an input channel of the first switchboard reaches channel `(xo, yo)` of the second through
some node exactly if it is in one rectangle. -/
theorem factory_receptive_field {inc f1 s1 f2 s2 : Arg} {d m : Nat} {ig : Bool} {p p' : Params} {prev b : Board}
    (hprev : newRect inc f1 s1 d ig = .ok prev) (hx1 : s1.xy.x ≤ f1.xy.x) (hy1 : s1.xy.y ≤ f1.xy.y) (hf : p.field = some f2) (hs : p.spacing = some s2)
    (h : Cls.rect.create p prev (m * prev.csb.outputChannels) = (.ok b, p')) :
    ∃ o', b.out = some o' ∧ ∀ xo < o'.x, ∀ yo < o'.y, ∀ x y, ∀ j < d, x < inc.xy.x → y < inc.xy.y →
      ((∃ c < prev.csb.outputChannels, ((((y * inc.xy.x + x) * d + j : Nat) : Int) ∈ prev.csb.outChannelInput c) ∧
          ∃ k < m, (((c * m + k : Nat) : Int) ∈ b.csb.outChannelInput (yo * o'.x + xo))) ↔
        (xo * s2.xy.x * s1.xy.x ≤ x ∧ x < xo * s2.xy.x * s1.xy.x + ((f2.xy.x - 1) * s1.xy.x + f1.xy.x)) ∧
        yo * s2.xy.y * s1.xy.y ≤ y ∧ y < yo * s2.xy.y * s1.xy.y + ((f2.xy.y - 1) * s1.xy.y + f1.xy.y)) := by
  have hm : Made prev := .rect hprev
  obtain ⟨o, o', f, s, ho, ho', hf', hs', hcnt, -, kx, ky, hroute⟩ := factory_route hm h
  obtain ⟨c1, hc1, rfl⟩ := newRect_get hprev
  obtain ⟨⟨g1, g2, g3, g4, g5, g6, g7, -⟩, -⟩ := rect_get hc1
  rw [hf] at hf'
  rw [hs] at hs'
  cases hf'
  cases hs'
  have hpos : 0 < f2.xy.x ∧ 0 < f2.xy.y ∧ 0 < m := by
    obtain ⟨o2, fa, sa, ho2, hfa, hsa, hb⟩ := create_rect_get h
    rw [Nat.mul_div_cancel _ (made_pos hm)] at hb
    obtain ⟨c, hc, rfl⟩ := newRect_get hb
    obtain ⟨⟨q1, -, q3, -, -, -, q7, -⟩, -⟩ := rect_get hc
    rw [hf] at hfa
    cases hfa
    exact ⟨q1, q3, q7⟩
  cases ho
  dsimp only at hroute kx ky hcnt
  refine ⟨o', ho', fun xo hxo yo hyo x y j hj hx hy => ?_⟩
  have kx' := (kx xo).1 hxo
  have ky' := (ky yo).1 hyo
  rw [← reach (xo := xo) (s2 := s2.xy.x) (x := x) g5 hx1 hpos.1, ← reach (xo := yo) (s2 := s2.xy.y) (x := y) g6 hy1 hpos.2.1]
  have mem1 : ∀ X < (inc.xy.x - f1.xy.x) / s1.xy.x + 1, ∀ Y < (inc.xy.y - f1.xy.y) / s1.xy.y + 1,
      ((((y * inc.xy.x + x) * d + j : Nat) : Int) ∈ c1.outChannelInput (Y * ((inc.xy.x - f1.xy.x) / s1.xy.x + 1) + X) ↔
        (X * s1.xy.x ≤ x ∧ x < X * s1.xy.x + f1.xy.x) ∧ Y * s1.xy.y ≤ y ∧ y < Y * s1.xy.y + f1.xy.y) := by
    intro X hX Y hY
    have h1 := (field_fits g5 g2 X).1 hX
    rw [rect_mem hc1 hX hY]
    constructor
    · rintro ⟨dx, hdx, dy, hdy, k', hk', e⟩
      have e' : inIdx inc.xy.x d x y j = inIdx inc.xy.x d (X * s1.xy.x + dx) (Y * s1.xy.y + dy) k' := by exact_mod_cast e
      obtain ⟨rfl, rfl, -⟩ := inIdx_inj e' hx hj (by omega) hk'
      omega
    · rintro ⟨⟨a1, a2⟩, a3, a4⟩
      refine ⟨x - X * s1.xy.x, by omega, y - Y * s1.xy.y, by omega, j, hj, ?_⟩
      rw [Nat.add_sub_cancel' a1, Nat.add_sub_cancel' a3]
  constructor
  · rintro ⟨c, hc, hcx, k, hk, hck⟩
    rw [hcnt] at hc
    have hX : c % ((inc.xy.x - f1.xy.x) / s1.xy.x + 1) < (inc.xy.x - f1.xy.x) / s1.xy.x + 1 := Nat.mod_lt _ (by omega)
    have hY : c / ((inc.xy.x - f1.xy.x) / s1.xy.x + 1) < (inc.xy.y - f1.xy.y) / s1.xy.y + 1 :=
      Nat.div_lt_of_lt_mul (by rw [Nat.mul_comm]; exact hc)
    have e := Nat.div_add_mod' c ((inc.xy.x - f1.xy.x) / s1.xy.x + 1)
    generalize c % ((inc.xy.x - f1.xy.x) / s1.xy.x + 1) = X at hX e
    generalize c / ((inc.xy.x - f1.xy.x) / s1.xy.x + 1) = Y at hY e
    subst e
    have a := (hroute xo hxo yo hyo X hX Y hY k hk).1 hck
    have b := (mem1 X hX Y hY).1 hcx
    exact ⟨⟨X, a.1, b.1⟩, Y, a.2, b.2⟩
  · rintro ⟨⟨X, a1, b1⟩, Y, a2, b2⟩
    have hX : X < (inc.xy.x - f1.xy.x) / s1.xy.x + 1 := by omega
    have hY : Y < (inc.xy.y - f1.xy.y) / s1.xy.y + 1 := by omega
    refine ⟨Y * ((inc.xy.x - f1.xy.x) / s1.xy.x + 1) + X, ?_, (mem1 X hX Y hY).2 ⟨b1, b2⟩, 0, hpos.2.2,
      (hroute xo hxo yo hyo X hX Y hY 0 hpos.2.2).2 ⟨a1, a2⟩⟩
    rw [hcnt]
    calc Y * ((inc.xy.x - f1.xy.x) / s1.xy.x + 1) + X < Y * ((inc.xy.x - f1.xy.x) / s1.xy.x + 1) + ((inc.xy.x - f1.xy.x) / s1.xy.x + 1) := by omega
      _ = (Y + 1) * ((inc.xy.x - f1.xy.x) / s1.xy.x + 1) := by ring
      _ ≤ _ := Nat.mul_le_mul_right _ hY

/-- C287: every image with at least one pixel has a switchboard; its channels are the pixels, row by row. -/
theorem factory_image (size : Arg) (hx : 0 < size.xy.x) (hy : 0 < size.xy.y) :
    ∃ b, imageBoard size = .ok b ∧ b.out = some size.xy ∧ b.csb.outputChannels = size.xy.y * size.xy.x ∧ b.csb.inputDim = size.xy.x * size.xy.y ∧
      ∀ x < size.xy.x, ∀ y < size.xy.y, ∀ v : Int, v ∈ b.csb.outChannelInput (y * size.xy.x + x) ↔ v = (y * size.xy.x + x : Nat) := by
  obtain ⟨s, hs⟩ := (rect_accepted size.xy (Arg.one 1).xy (Arg.one 1).xy 1 false).2
    ⟨Nat.one_pos, hx, Nat.one_pos, hy, Nat.one_pos, Nat.one_pos, Nat.one_pos, .inr ⟨Nat.mod_one _, Nat.mod_one _⟩⟩
  obtain ⟨-, a1, -⟩ := rect_get hs
  have ex : (size.xy.x - (Arg.one 1).xy.x) / (Arg.one 1).xy.x + 1 = size.xy.x := by
    show (size.xy.x - 1) / 1 + 1 = _
    rw [Nat.div_one]; omega
  have ey : (size.xy.y - (Arg.one 1).xy.y) / (Arg.one 1).xy.y + 1 = size.xy.y := by
    show (size.xy.y - 1) / 1 + 1 = _
    rw [Nat.div_one]; omega
  have hb : imageBoard size = .ok (.rect s size.xy) := by
    simp only [imageBoard, newRect, hs, ex, ey]
  have hcnt := (grid_count (.rect hb) rfl).1
  refine ⟨_, hb, rfl, hcnt, ?_, fun x hx' y hy' v => ?_⟩
  · show s.inputDim = _
    rw [a1]; ring
  · have := rect_mem hs (xo := x) (yo := y) (by rw [ex]; exact hx') (by rw [ey]; exact hy') v
    rw [ex] at this
    show v ∈ s.outChannelInput _ ↔ _
    rw [this]
    constructor
    · rintro ⟨dx, hdx, dy, hdy, k, hk, rfl⟩
      change dx < 1 at hdx
      change dy < 1 at hdy
      have : dx = 0 := by omega
      have : dy = 0 := by omega
      have : k = 0 := by omega
      subst_vars
      simp [Arg.xy]
    · rintro rfl
      exact ⟨0, Nat.one_pos, 0, Nat.one_pos, 0, Nat.one_pos, by simp [Arg.xy]⟩

/-- C288: a previous switchboard of another class is refused. -/
theorem factory_incompatible (cls : Cls) (p : Params) (prev : Board) (n : Nat) :
    (cls.create p prev n).1 = .error (.sb .switchboard) ∨ match cls, prev with
      | .channel, _ => True
      | .rect, .rect _ _ | .rect, .doubleRhomb _ _ | .doubleRect, .rect _ _ | .doubleRect, .doubleRhomb _ _ => True
      | .doubleRhomb, .doubleRect _ _ => True
      | _, _ => False := by
  cases cls <;> cases prev <;> simp [Cls.create, Cls.compatible]

/-- C288, false for `DoubleRhomb2dSwitchboard`: no call succeeds, because the argument is passed under a name that the constructor does not
have. -/
theorem factory_rhomb_violation (p : Params) (prev : Board) (n : Nat) : ∃ e, (Cls.doubleRhomb.create p prev n).1 = .error e := by
  simp only [Cls.create]
  split
  · exact ⟨_, rfl⟩
  split
  · exact ⟨_, rfl⟩
  split <;> exact ⟨_, rfl⟩

/-- C288, false: the dictionary of the caller gets a new key. -/
theorem factory_params_violation {p : Params} {prev b : Board} {n : Nat} (hi : p.ignoreCover = none) {cls : Cls} (hc : cls = .rect ∨ cls = .doubleRect)
    {p' : Params} (h : cls.create p prev n = (.ok b, p')) : p' = { p with ignoreCover := some true } ∧ p' ≠ p := by
  have : p' = { p with ignoreCover := some true } := by
    rcases hc with rfl | rfl <;>
    · simp only [Cls.create] at h
      split at h
      · cases h
      split at h
      · cases h
      have := (congrArg Prod.snd h).symm
      simp only [hi, Option.getD_none] at this
      exact this
  refine ⟨this, fun e => ?_⟩
  rw [this] at e
  have := congrArg Params.ignoreCover e
  rw [hi] at this
  cases this

/-- C288, false: a layer whose outputs cannot be shared out among the channels is accepted, and the new board does not fit. -/
theorem factory_mismatch_violation : ∃ prev b p', Made prev ∧
    Cls.rect.create { field := some (.one 2), spacing := some (.one 1), ignoreCover := none, fieldSize := none } prev 13 = (.ok b, p') ∧
    b.csb.inputDim = 12 :=
  ⟨_, _, _, .rect (b := _) (rfl : newRect (.one 3) (.one 2) (.one 1) 1 false = _), rfl, rfl⟩

/-! ## Examples -/

private def p2 : Params := { field := some (.one 2), spacing := some (.one 1), ignoreCover := none, fieldSize := none }

/-- An image of 4 by 4 pixels, fields of 2 by 2 that overlap, nodes with 3 outputs, again fields of 2 by 2. -/
example : ∃ img b b' p', imageBoard (.one 4) = .ok img ∧ Cls.rect.create p2 img 16 = (.ok b, p') ∧ Cls.rect.create p2 b (3 * b.csb.outputChannels) = (.ok b', p') ∧
    b'.csb.inputDim = 27 ∧ b'.csb.outputChannels = 4 ∧ Made img ∧ Made b :=
  ⟨_, _, _, _, rfl, rfl, rfl, rfl, rfl, .rect (rfl : imageBoard (.one 4) = _), .rect (rfl : newRect (.two 4 4) (.one 2) (.one 1) 1 true = _)⟩

example : ∃ s o, Made (.doubleRhomb s o) ∧ ∃ b p', Cls.doubleRect.create p2 (.doubleRhomb s o) 32 = (.ok b, p') ∧ b.csb.inputDim = 32 := by
  refine ⟨_, _, .doubleRhomb (rfl : newDoubleRhomb (.two 6 5) 2 1 = _), ?_⟩
  refine ⟨_, _, rfl, rfl⟩

end Mdp.Switchboard
