import Verif.Nodes.LleHessProps
import Mathlib.LinearAlgebra.Dimension.Constructions

/-!
# `HLLENode` for flat data, and exact routines
-/

namespace Mdp.Lle

open Mdp.Cov Mdp.Symeig Mdp.Pca Mdp.Sfa

variable {d N m n : Nat}

/-! ## Specification -/

/-- `y` is an affine function of the data. -/
def AffineOf (M : Fin N → Row ℝ d) (y : Row ℝ N) : Prop := ∃ (b : Row ℝ d) (s : ℝ), ∀ a, y a = s + ∑ c, b c * M a c

/-- The data lie in a flat of dimension `out`. -/
def FlatData (M : Fin N → Row ℝ d) (out : Nat) : Prop :=
  ∃ (base : Row ℝ d) (dir : Fin out → Row ℝ d) (θ : Fin N → Fin out → ℝ), ∀ a c, M a c = base c + ∑ p, θ a p * dir p c

/-! ## Flat neighbourhoods -/

/-- `out + 1` orthonormal vectors are not in the range of a matrix with `out` columns. -/
theorem range_dim {k out : Nat} (T : Fin k → Fin out → ℝ) (u : Fin (out + 1) → Row ℝ k) (hu : Orthonormal u)
    (s : Fin (out + 1) → Fin out → ℝ) (h : ∀ j i, u j i = ∑ p, T i p * s j p) : False := by
  have hli : LinearIndependent ℝ s := by
    rw [Fintype.linearIndependent_iff]
    intro g hg j
    have hz : ∀ i, ∑ j, g j * u j i = 0 := by
      intro i
      have h1 : ∀ p, ∑ j, g j * s j p = 0 := fun p => by
        have := congrFun hg p
        simpa using this
      calc ∑ j, g j * u j i = ∑ j, ∑ p, T i p * (g j * s j p) := Finset.sum_congr rfl fun j _ => by
            rw [h, Finset.mul_sum]; exact Finset.sum_congr rfl fun _ _ => by ring
        _ = ∑ p, T i p * ∑ j, g j * s j p := by
            rw [Finset.sum_comm]; exact Finset.sum_congr rfl fun _ _ => by rw [Finset.mul_sum]
        _ = 0 := by simp [h1]
    have h2 : ∑ i, (∑ l, g l * u l i) * u j i = g j := by
      calc _ = ∑ l, g l * dot (u l) (u j) := by
            simp only [Finset.sum_mul, dot, Finset.mul_sum]
            rw [Finset.sum_comm]
            exact Finset.sum_congr rfl fun _ _ => Finset.sum_congr rfl fun _ _ => by ring
        _ = g j := by
            have : ∀ l, dot (u l) (u j) = if l = j then 1 else 0 := fun l => hu l j
            simp [this]
    rw [← h2]
    simp [hz]
  have := hli.fintype_card_le_finrank
  simp at this

theorem centred_flat {M : Fin N → Row ℝ d} {out : Nat} (hM : FlatData M out) (nb : List (Fin N)) (h0 : 0 < nb.length) :
    ∃ (T : Fin nb.length → Fin out → ℝ) (dir : Fin out → Row ℝ d), ∀ j c, M (nb.get j) c - (∑ j, M (nb.get j) c) / nb.length
      = ∑ p, T j p * dir p c := by
  obtain ⟨base, dir, θ, h⟩ := hM
  have hn : (nb.length : ℝ) ≠ 0 := by positivity
  refine ⟨fun j p => θ (nb.get j) p - (∑ i, θ (nb.get i) p) / nb.length, dir, fun j c => ?_⟩
  have h1 : (∑ j, M (nb.get j) c) / nb.length = base c + ∑ p, (∑ i, θ (nb.get i) p) / nb.length * dir p c := by
    simp only [h, Finset.sum_add_distrib, Finset.sum_const, Finset.card_univ, Fintype.card_fin, nsmul_eq_mul]
    rw [add_div, mul_div_cancel_left₀ _ hn, Finset.sum_comm, Finset.sum_div]
    congr 1
    refine Finset.sum_congr rfl fun p _ => ?_
    rw [← Finset.sum_mul]
    ring
  rw [h1, h]
  simp only [sub_mul, Finset.sum_sub_distrib]
  ring

/-- The forms of flat data are zero for affine functions of the data. -/
theorem forms_flat {M : Fin N → Row ℝ d} {out : Nat} (hM : FlatData M out) {nb : List (Fin N)} (hn : nb.Nodup) (h0 : 0 < nb.length)
    {ws : List (Row ℝ N)} (hw : HessForms M nb out ws) {y : Row ℝ N} (hy : AffineOf M y) {w : Row ℝ N} (hwm : w ∈ ws) : dot w y = 0 := by
  obtain ⟨L, hL, hdesc, hperp⟩ := hw.coords
  obtain ⟨T, dir, hT⟩ := centred_flat hM nb h0
  -- the centred data
  obtain ⟨A, hA⟩ : ∃ A : Mat ℝ nb.length d, ∀ j c, A j c = M (nb.get j) c - (∑ j, M (nb.get j) c) / nb.length := ⟨_, fun _ _ => rfl⟩
  have hC : ∀ a b, centredProducts M nb a b = ∑ c, A a c * A b c := fun a b => by
    unfold centredProducts
    simp only [hA]
  have hsq : ∀ p ∈ L, p.1 = ∑ c, (∑ j, A j c * p.2 j) ^ 2 := by
    intro p hp
    have h2 := hL.unit p hp
    unfold dot at h2
    calc p.1 = p.1 * ∑ k, p.2 k * p.2 k := by rw [h2, mul_one]
      _ = ∑ k, p.2 k * (p.1 * p.2 k) := by
          rw [Finset.mul_sum]
          exact Finset.sum_congr rfl fun _ _ => by ring
      _ = ∑ k, p.2 k * ∑ j, (∑ c, A k c * A j c) * p.2 j := by simp only [← hL.eigen p hp, hC]
      _ = ∑ c, (∑ j, A j c * p.2 j) ^ 2 := by
          simp only [sq, Finset.sum_mul_sum]
          simp only [Finset.mul_sum, Finset.sum_mul]
          rw [Finset.sum_comm_cycle]
          exact Finset.sum_congr rfl fun _ _ => Finset.sum_congr rfl fun _ _ => Finset.sum_congr rfl fun _ _ => by ring
  have hnn : ∀ p ∈ L, 0 ≤ p.1 := fun p hp => by rw [hsq p hp]; exact Finset.sum_nonneg fun _ _ => sq_nonneg _
  -- the eigenvalues after the first `out` are zero
  have hzero : ∀ p ∈ L.drop out, p.1 = 0 := by
    intro p hp
    by_contra hne
    have hpos : 0 < p.1 := lt_of_le_of_ne (hnn p (List.mem_of_mem_drop hp)) (Ne.symm hne)
    obtain ⟨j, hj, rfl⟩ := List.getElem_of_mem hp
    rw [List.length_drop] at hj
    rw [List.getElem_drop] at hpos
    have hlt : ∀ i : Fin (out + 1), i.1 < L.length := fun i => by have := i.2; omega
    have hposi : ∀ i : Fin (out + 1), 0 < (L[i.1]'(hlt i)).1 := by
      intro i
      rcases Nat.lt_or_ge i.1 (out + j) with h | h
      · exact lt_of_lt_of_le hpos (List.pairwise_iff_getElem.1 hdesc i.1 (out + j) (hlt i) (by omega) h)
      · have : i.1 = out + j := by have := i.2; omega
        simpa [this] using hpos
    refine range_dim T (fun i => (L[i.1]'(hlt i)).2) (fun a b => ?_)
      (fun i q => (∑ c, dir q c * ∑ j, A j c * (L[i.1]'(hlt i)).2 j) / (L[i.1]'(hlt i)).1) fun i k => ?_
    · have := eigList_ortho hL ⟨a.1, hlt a⟩ ⟨b.1, hlt b⟩
      simp only [List.get_eq_getElem, Fin.mk.injEq] at this
      rw [this]
      simp only [Fin.ext_iff]
    · have he := hL.eigen _ (List.getElem_mem (hlt i)) k
      simp only [hC] at he
      have h1 : ∑ p, T k p * ((∑ c, dir p c * ∑ j, A j c * (L[i.1]'(hlt i)).2 j) / (L[i.1]'(hlt i)).1)
          = (∑ c, A k c * ∑ j, A j c * (L[i.1]'(hlt i)).2 j) / (L[i.1]'(hlt i)).1 := by
        simp only [← mul_div_assoc]
        rw [← Finset.sum_div]
        congr 1
        simp only [Finset.mul_sum]
        rw [Finset.sum_comm]
        refine Finset.sum_congr rfl fun c _ => ?_
        rw [Finset.sum_comm]
        refine Finset.sum_congr rfl fun j _ => ?_
        rw [hA k c, hT k c, Finset.sum_mul]
        exact Finset.sum_congr rfl fun _ _ => by ring
      have h2 : ∑ c, A k c * ∑ j, A j c * (L[i.1]'(hlt i)).2 j = (L[i.1]'(hlt i)).1 * (L[i.1]'(hlt i)).2 k := by
        rw [← he]
        simp only [Finset.mul_sum, Finset.sum_mul]
        rw [Finset.sum_comm]
        exact Finset.sum_congr rfl fun _ _ => Finset.sum_congr rfl fun _ _ => by ring
      rw [h1, h2]
      exact (mul_div_cancel_left₀ _ (hposi i).ne').symm
  -- the form is orthogonal to the centred columns
  have hcol : ∀ c, ∑ j, w (nb.get j) * A j c = 0 := by
    intro c
    have hexp := fun k => hL.expand (fun j => A j c) k
    have h1 : ∑ j, w (nb.get j) * A j c = (L.map fun p => dot (fun j => A j c) p.2 * ∑ j, w (nb.get j) * p.2 j).sum := by
      calc ∑ j, w (nb.get j) * A j c = ∑ j, w (nb.get j) * (L.map fun p => dot (fun j => A j c) p.2 * p.2 j).sum :=
            Finset.sum_congr rfl fun j _ => by rw [← hexp j]
        _ = _ := by
            clear hexp hzero hnn hsq hperp hdesc
            clear hL
            induction L with
            | nil => simp
            | cons p L ih =>
              simp only [List.map_cons, List.sum_cons, mul_add, Finset.sum_add_distrib, ih]
              congr 1
              rw [Finset.mul_sum]
              exact Finset.sum_congr rfl fun _ _ => by ring
    rw [h1]
    refine List.sum_eq_zero fun x hx => ?_
    obtain ⟨p, hp, rfl⟩ := List.mem_map.1 hx
    rw [← List.take_append_drop out L, List.mem_append] at hp
    rcases hp with hp | hp
    · rw [hperp w hwm p hp, mul_zero]
    · have hs := hsq p (List.mem_of_mem_drop hp)
      rw [hzero p hp] at hs
      have := (Finset.sum_eq_zero_iff_of_nonneg fun _ _ => sq_nonneg _).1 hs.symm c (Finset.mem_univ _)
      have h3 : dot (fun j => A j c) p.2 = 0 := pow_eq_zero_iff two_ne_zero |>.1 this
      rw [h3, zero_mul]
  obtain ⟨b, s, hb⟩ := hy
  have hsum := hw.const w hwm
  have hsupp := hw.supp w hwm
  unfold dot
  rw [sum_supp hn (fun a => w a * y a) fun a ha => by rw [hsupp a ha, zero_mul]]
  rw [sum_supp hn _ hsupp] at hsum
  have h4 : ∀ j, y (nb.get j) = (s + ∑ c, b c * ((∑ j, M (nb.get j) c) / nb.length)) + ∑ c, b c * A j c := fun j => by
    simp only [hb, hA, mul_sub, Finset.sum_sub_distrib]
    ring
  simp only [h4, mul_add, Finset.sum_add_distrib]
  rw [← Finset.sum_mul, ← Finset.sum_mul, hsum, zero_mul, zero_mul, zero_add, zero_add]
  calc ∑ j, w (nb.get j) * ∑ c, b c * A j c = ∑ c, b c * ∑ j, w (nb.get j) * A j c := by
        simp only [Finset.mul_sum]
        rw [Finset.sum_comm]
        exact Finset.sum_congr rfl fun _ _ => Finset.sum_congr rfl fun _ _ => by ring
    _ = 0 := Finset.sum_eq_zero fun c _ => by rw [hcol, mul_zero]

/-- C268: for data in a flat of dimension `output_dim` all affine functions of the data have no error. If there are
`output_dim` centred orthonormal ones then no column of the embedding has an error, and if only affine functions of the data
have no error then all columns are affine functions of the data. -/
theorem hlle_flat (E : Env ℝ) (hE : Sorts E) (hG : EigOk E) (hS : SvdOk E) (hQ : QrOk E) (hL : LeftOk E)
    (hq : E.eig.sqrt = Real.sqrt) (c : Cfg ℝ) (M : Fin N → Row ℝ d) (out : Nat) (proj : List (Row ℝ N))
    (h : hstop E c M = .ok (out, proj)) (ho : 1 ≤ out) (hk : 1 + out + out * (out + 1) / 2 ≤ c.k) (hM : FlatData M out)
    (hfull : ∃ θ : Fin out → Row ℝ N, Orthonormal θ ∧ ∀ p, AffineOf M (θ p) ∧ ∑ i, θ p i = 0) :
    ∃ ws : Fin N → List (Row ℝ N),
      (∀ i, ∃ nb : List (Fin N), nb.Nodup ∧ Neighbours M i c.k nb.toFinset ∧ HessForms M nb out (ws i))
      ∧ (∀ y, AffineOf M y → hessErr ws y = 0)
      ∧ (∀ u ∈ proj, hessErr ws u = 0)
      ∧ ((∀ y, hessErr ws y = 0 → AffineOf M y) → ∀ u ∈ proj, AffineOf M u) := by
  obtain ⟨ws, h1, h2, h3, h4, -⟩ := hlle_embedding E hE hG hS hQ hL hq c M out proj h ho hk
  have haff : ∀ y, AffineOf M y → hessErr ws y = 0 := by
    intro y hy
    refine Finset.sum_eq_zero fun i _ => formErr_zero fun w hw => ?_
    obtain ⟨nb, hn, hnb, hf⟩ := h1 i
    refine forms_flat hM hn ?_ hf hy hw
    have := hnb.card
    rw [List.toFinset_card_of_nodup hn] at this
    omega
  have hzero : ∀ u ∈ proj, hessErr ws u = 0 := by
    obtain ⟨θ, t1, t2⟩ := hfull
    have hscale : ∀ p, AffineOf M fun i => (N : ℝ) * θ p i := fun p => by
      obtain ⟨⟨b, s, hb⟩, _⟩ := t2 p
      refine ⟨fun c => N * b c, N * s, fun a => ?_⟩
      beta_reduce
      rw [hb, mul_add, Finset.mul_sum]
      congr 1
      exact Finset.sum_congr rfl fun _ _ => by ring
    have hle := h4 (fun a i => (N : ℝ) * θ (a.cast h2) i) (fun a b => by
        have h5 := t1 (a.cast h2) (b.cast h2)
        unfold dot at h5 ⊢
        calc _ = (N : ℝ) ^ 2 * ∑ k, θ (a.cast h2) k * θ (b.cast h2) k := by
              rw [Finset.mul_sum]; exact Finset.sum_congr rfl fun _ _ => by ring
          _ = _ := by rw [h5]; simp)
      fun a => by rw [← Finset.mul_sum, (t2 _).2, mul_zero]
    rw [Finset.sum_eq_zero fun a _ => haff _ (hscale _)] at hle
    have hnn : ∀ j : Fin proj.length, 0 ≤ hessErr ws (proj.get j) := fun j => Finset.sum_nonneg fun _ _ => formErr_nonneg _ _
    intro u hu
    obtain ⟨j, rfl⟩ := List.get_of_mem hu
    exact (Finset.sum_eq_zero_iff_of_nonneg fun j _ => hnn j).1 (le_antisymm hle (Finset.sum_nonneg fun j _ => hnn j)) j (Finset.mem_univ _)
  exact ⟨ws, h1, haff, hzero, fun hker u hu => hker u (hzero u hu)⟩

/-! ## Exact routines -/

theorem exists_left {n m : Nat} (A : Mat ℝ n m) : ∃ L : List (ℝ × Row ℝ n), EigList (fun a b => ∑ c, A a c * A b c) L
    ∧ (L.Pairwise fun p q => q.1 ≤ p.1) := by
  obtain ⟨l, hl⟩ := exists_eig (fun a b => ∑ c, A a c * A b c) fun a b => Finset.sum_congr rfl fun _ _ => mul_comm _ _
  refine ⟨(l.insertionSort fun a b => a.1 ≤ b.1).reverse, EigList.perm hl ((List.reverse_perm _).trans (List.perm_insertionSort _ _)), ?_⟩
  rw [List.pairwise_reverse]
  exact sort_asc l

theorem exists_qr {n : Nat} (l : List (Row ℝ n)) : ∃ q : List (Row ℝ n), l.length ≤ n → q.length = l.length ∧ OrthoList q
    ∧ ∀ i j (hi : i < l.length) (hj : j < q.length), i < j → dot q[j] l[i] = 0 := by
  by_cases hn : l.length ≤ n
  · let f : Fin n → EuclideanSpace ℝ (Fin n) := fun i => WithLp.toLp 2 (l.getD i.1 0)
    let B := InnerProductSpace.gramSchmidtOrthonormalBasis (𝕜 := ℝ) (by simp : Module.finrank ℝ (EuclideanSpace ℝ (Fin n)) = Fintype.card (Fin n)) f
    have hin : ∀ u v : EuclideanSpace ℝ (Fin n), dot (fun k => u k) (fun k => v k) = inner ℝ u v := fun u v => by
      simp [dot, PiLp.inner_apply, mul_comm]
    refine ⟨List.ofFn fun i : Fin l.length => fun k => B (i.castLE hn) k, fun _ => ⟨by simp, ⟨fun u hu => ?_, ?_⟩, fun i j hi hj hij => ?_⟩⟩
    · obtain ⟨i, rfl⟩ := (List.mem_ofFn' _ _).1 hu
      rw [hin, orthonormal_iff_ite.1 B.orthonormal]
      simp
    · rw [List.pairwise_ofFn]
      intro i j hij
      rw [hin, orthonormal_iff_ite.1 B.orthonormal, if_neg]
      intro h
      have := congrArg Fin.val h
      simp at this
      have h' : i.1 < j.1 := hij
      omega
    · rw [List.length_ofFn] at hj
      have h1 := InnerProductSpace.gramSchmidtOrthonormalBasis_inv_triangular (𝕜 := ℝ)
        (by simp : Module.finrank ℝ (EuclideanSpace ℝ (Fin n)) = Fintype.card (Fin n)) f
        (i := ⟨i, by omega⟩) (j := ⟨j, by omega⟩) hij
      rw [← hin] at h1
      rw [List.getElem_ofFn, ← h1]
      congr 1
      funext k
      simp [f, List.getD, hi]
  · exact ⟨[], fun h => absurd h hn⟩

/-- Exact routines. -/
noncomputable def realH : Env ℝ :=
  { realE with
    left := fun _ _ A => (exists_left A).choose.map (·.2)
    qr := fun _ l => (exists_qr l).choose }

theorem realH_left : LeftOk realH := fun _ _ A => ⟨(exists_left A).choose, (exists_left A).choose_spec.1, (exists_left A).choose_spec.2, rfl⟩

theorem realH_qr : QrOk realH := fun _ l h => (exists_qr l).choose_spec h

theorem realH_eig {n : Nat} (A : Mat ℝ n n) (rng : Option (Nat × Nat)) : ∃ l, realH.eig.std A rng = .ok l := by
  unfold Symeig.Env.std
  cases h : realH.eig.eigh n A with
  | none => exact absurd h (by simp only [realH, realE]; split <;> simp)
  | some l => exact ⟨_, rfl⟩

/-- C267: training succeeds for all data with more points than neighbours and more neighbours than output dimensions. -/
theorem hlle_training_succeeds (E : Env ℝ) (hE : Sorts E) (hw : ∀ n (A : Mat ℝ n n), E.eig.eigh n A ≠ none) (c : Cfg ℝ)
    (M : Fin N → Row ℝ d) (out : Nat) (ho : c.out = some out) (hk : c.k < N) (hout : out < c.k) : ∃ proj, hstop E c M = .ok (out, proj) := by
  have hstd : ∀ {n : Nat} (A : Mat ℝ n n) rng, ∃ l, E.eig.std A rng = .ok l := by
    intro n A rng
    unfold Symeig.Env.std
    cases h : E.eig.eigh n A with
    | none => exact absurd h (hw n A)
    | some l => exact ⟨_, rfl⟩
  have hcol : ∀ i, ∃ ws, hessCols E c.k out M i = .ok ws := by
    intro i
    unfold hessCols
    simp only
    rw [if_neg (by rw [(drop_nearest hE M i hk).2.1]; omega)]
    exact ⟨_, rfl⟩
  choose g hg using hcol
  unfold hstop
  rw [if_neg (by omega)]
  have : outDim E c M = .ok out := by unfold outDim; rw [ho]
  rw [this]
  simp only
  rw [if_neg (by omega), loop_all _ _ g hg]
  simp only
  have hsq : ∀ {m : Nat} (A : Mat ℝ m m), ∃ C, sqrtm E A = .ok C := by
    intro m A
    obtain ⟨l, hl⟩ := hstd A none
    unfold sqrtm
    rw [hl]
    exact ⟨_, rfl⟩
  split
  · next e he =>
    split at he
    · cases he
    · split at he
      · next e' he' =>
        obtain ⟨l, hl⟩ := hstd (fun a b => (((List.finRange N).flatMap g).map fun w => w a * w b).sum + if a = b then 1 / 100 else 0) (some (2, out + 1))
        rw [hl] at he'
        cases he'
      · cases he
  · next l _ =>
    obtain ⟨C, hC⟩ := hsq (fun i j => ∑ a, (l.map fun p a => p.2 a * E.eig.sqrt (N : ℝ)).get i a * (l.map fun p a => p.2 a * E.eig.sqrt (N : ℝ)).get j a)
    rw [hC]
    exact ⟨_, rfl⟩

theorem realH_works {n : Nat} (A : Mat ℝ n n) : realH.eig.eigh n A ≠ none := by
  simp only [realH, realE]
  split <;> simp

/-- The hypotheses of `hlle_embedding` are met by all data. -/
example (M : Fin 20 → Row ℝ 3) (svd : Bool) : ∃ proj, hstop realH { k := 7, r := none, svd := svd, out := some 2 } M = .ok (2, proj)
    ∧ proj.length = 2 := by
  obtain ⟨proj, hp⟩ := hlle_training_succeeds realH realSorts (fun _ A => realH_works A) { k := 7, r := none, svd := svd, out := some 2 } M 2 rfl
    (by norm_num) (by norm_num)
  obtain ⟨_, _, h, _⟩ := hlle_embedding realH realSorts realEig realSvd realH_qr realH_left rfl _ M 2 proj hp (by norm_num) (by norm_num)
  exact ⟨proj, hp, h⟩

/-- The hypotheses of `hlle_flat` are met: four points on a line, at the places -1, 0, 0, 1 of the line. -/
example : FlatData (![![-1, -2], ![0, 0], ![0, 0], ![1, 2]] : Fin 4 → Row ℝ 2) 1
    ∧ ∃ θ : Fin 1 → Row ℝ 4, Orthonormal θ ∧ ∀ p, AffineOf (![![-1, -2], ![0, 0], ![0, 0], ![1, 2]] : Fin 4 → Row ℝ 2) (θ p) ∧ ∑ i, θ p i = 0 := by
  have hs : Real.sqrt 2 * Real.sqrt 2 = 2 := Real.mul_self_sqrt (by norm_num)
  refine ⟨⟨fun _ => 0, fun _ => ![1, 2], fun a _ => ![-1, 0, 0, 1] a, fun a c => ?_⟩,
    fun _ => ![- (Real.sqrt 2 / 2), 0, 0, Real.sqrt 2 / 2], fun a b => ?_, fun p => ⟨⟨![Real.sqrt 2 / 2, 0], 0, fun a => ?_⟩, ?_⟩⟩
  · fin_cases a <;> fin_cases c <;> simp
  · have : a = b := Subsingleton.elim _ _
    subst this
    simp [dot, Fin.sum_univ_succ]
    nlinarith [hs]
  · fin_cases a <;> simp [Fin.sum_univ_succ]
  · simp [Fin.sum_univ_succ]

/-- The refusals of `hlle_few_neighbours_violation` are met: two output dimensions, five neighbours. -/
example (u v : Row ℝ 5) : 0 ∈ (mgs Real.sqrt (forms [u, v])).2 := hlle_few_neighbours_violation 5 2 (by norm_num) [u, v] rfl

end Mdp.Lle
