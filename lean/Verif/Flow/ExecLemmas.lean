import Verif.Flow.Model
import Verif.Flow.ContainerProps
import Verif.Node.Stable
import Mathlib.Data.List.Forall2

namespace Mdp.Flow

open Py Mdp.Node

variable {σ α β : Type}

/-! ### Chunk independence of the per-array functions -/

/-- Same node objects up to the ghost trace. -/
def SameVis (a b : List (Nd σ α β)) : Prop :=
  List.Forall₂ (fun m n => n.K = m.K ∧ visible n.s = visible m.s) a b

theorem SameVis.refl (a : List (Nd σ α β)) : SameVis a a := by
  induction a with
  | nil => exact .nil
  | cons n r ih => exact .cons ⟨rfl, rfl⟩ ih

theorem SameVis.trans {a b c : List (Nd σ α β)} (h : SameVis a b) (h' : SameVis b c) : SameVis a c := by
  unfold SameVis at *
  induction h generalizing c with
  | nil => cases h'; exact .nil
  | cons h1 _ ih =>
    cases h' with
    | cons h2 h3 => exact .cons ⟨h2.1.trans h1.1, h2.2.trans h1.2⟩ (ih h3)

theorem SameVis.symm {a b : List (Nd σ α β)} (h : SameVis a b) : SameVis b a := by
  unfold SameVis at *
  induction h with
  | nil => exact .nil
  | cons h1 _ ih => exact .cons ⟨h1.1.symm, h1.2.symm⟩ ih

theorem SameVis.length {a b : List (Nd σ α β)} (h : SameVis a b) : b.length = a.length := by
  unfold SameVis at h
  exact h.length_eq.symm

/-- `f` fails for every array of a given shape in the same way, or maps all of them row by row. -/
def RowFn (f : Arr α → List (Nd σ α β) → Except Err (Arr α) × List (Nd σ α β)) (fl : List (Nd σ α β)) : Prop :=
  ∀ n c t,
    (∃ e, ∀ d, d ≠ [] → ∀ g, SameVis fl g → (f ⟨n, c, t, d⟩ g).1 = .error e) ∨
    (∃ n' c' t' F, ∀ d, d ≠ [] → ∀ g, SameVis fl g →
      (f ⟨n, c, t, d⟩ g).1 = .ok ⟨n', c', t', d.map F⟩ ∧ SameVis fl (f ⟨n, c, t, d⟩ g).2)

theorem concat_rows (promote : Nat → Nat → Nat) (n c t : Nat) (ht : promote t t = t)
    (d : List (List α)) (ds : List (List (List α))) :
    concat promote ((d :: ds).map fun d => (⟨n, c, t, d⟩ : Arr α)) = .ok ⟨n, c, t, (d :: ds).flatten⟩ := by
  have : ∀ (ds : List (List (List α))) (d : List (List α)),
      (ds.map fun d => (⟨n, c, t, d⟩ : Arr α)).foldlM (m := Except Err) (fun (acc b : Arr α) =>
        if acc.ndim = b.ndim ∧ acc.cols = b.cols then
          .ok { acc with dtype := promote acc.dtype b.dtype, data := acc.data ++ b.data }
        else .error .value) (⟨n, c, t, d⟩ : Arr α) = .ok ⟨n, c, t, (d :: ds).flatten⟩ := by
    intro ds
    induction ds with
    | nil => intro d; simp [pure, Except.pure]
    | cons a r ih =>
      intro d
      simp only [List.map_cons, List.foldlM_cons, and_self, if_true, ht, bind, Except.bind]
      rw [ih]
      simp
  simpa [concat] using this ds d

theorem mapChunks_ok {f : Arr α → List (Nd σ α β) → Except Err (Arr α) × List (Nd σ α β)}
    {fl : List (Nd σ α β)} {n c t n' c' t' : Nat} {F : List α → List α}
    (h : ∀ d, d ≠ [] → ∀ g, SameVis fl g →
      (f ⟨n, c, t, d⟩ g).1 = .ok ⟨n', c', t', d.map F⟩ ∧ SameVis fl (f ⟨n, c, t, d⟩ g).2)
    (ds : List (List (List α))) (hd : ∀ d ∈ ds, d ≠ []) (g : List (Nd σ α β)) (hg : SameVis fl g) :
    (mapChunks f (ds.map fun d => ⟨n, c, t, d⟩) g).1 = .ok (ds.map fun d => ⟨n', c', t', d.map F⟩) ∧
    SameVis fl (mapChunks f (ds.map fun d => ⟨n, c, t, d⟩) g).2 := by
  induction ds generalizing g with
  | nil => exact ⟨rfl, hg⟩
  | cons d r ih =>
    obtain ⟨h1, h2⟩ := h d (hd d (by simp)) g hg
    simp only [List.map_cons, mapChunks]
    generalize f ⟨n, c, t, d⟩ g = R at h1 h2
    obtain ⟨res, g'⟩ := R
    simp only at h1 h2
    subst h1
    obtain ⟨h3, h4⟩ := ih (fun d hd' => hd d (by simp [hd'])) g' h2
    simp only
    generalize mapChunks f (r.map fun d => ⟨n, c, t, d⟩) g' = R at h3 h4
    obtain ⟨res, g''⟩ := R
    simp only at h3 h4
    subst h3
    exact ⟨rfl, h4⟩

theorem overInput_chunks (promote : Nat → Nat → Nat) (hpr : ∀ t, promote t t = t)
    {f : Arr α → List (Nd σ α β) → Except Err (Arr α) × List (Nd σ α β)} {fl : List (Nd σ α β)}
    (h : RowFn f fl) (n c t : Nat) (ds : List (List (List α))) (hne : ds ≠ []) (hd : ∀ d ∈ ds, d ≠ []) :
    (overInput promote f fl (.chunks (ds.map fun d => ⟨n, c, t, d⟩))).1 =
      (overInput promote f fl (.arr ⟨n, c, t, ds.flatten⟩)).1 := by
  cases ds with
  | nil => exact absurd rfl hne
  | cons d r =>
    have hfl : (d :: r).flatten ≠ [] := by
      simp only [List.flatten_cons]
      intro hh
      exact hd d (by simp) (List.append_eq_nil_iff.1 hh).1
    rcases h n c t with ⟨e, he⟩ | ⟨n', c', t', F, hF⟩
    · have h1 := he d (hd d (by simp)) fl (.refl _)
      have h2 := he _ hfl fl (.refl _)
      simp only [overInput, h2, List.map_cons, mapChunks]
      generalize f ⟨n, c, t, d⟩ fl = R at h1
      obtain ⟨res, g'⟩ := R
      simp only at h1
      subst h1
      rfl
    · have h1 := (mapChunks_ok hF (d :: r) hd fl (.refl _)).1
      have h2 := (hF _ hfl fl (.refl _)).1
      simp only [overInput, h2]
      generalize mapChunks f ((d :: r).map fun d => ⟨n, c, t, d⟩) fl = R at h1
      obtain ⟨res, g'⟩ := R
      simp only at h1
      subst h1
      have := concat_rows promote n' c' t' (hpr t') (d.map F) (r.map fun d => d.map F)
      simp only [List.map_cons, List.map_map, Function.comp_def] at this
      simp [this, List.map_flatten]

/-- Trained, and `execute` maps the rows one by one. -/
def RowExec (nd : Nd σ α β) : Prop :=
  Stable nd.s ∧ (∀ x, (nd.K.execHook nd.s.st x).st = nd.s.st ∧ (nd.K.execHook nd.s.st x).sets = []) ∧
  ∀ t c, nd.s.dtype = some t → nd.s.inputDim = some c → ∃ c' t' F, ∀ d,
    (nd.K.execHook nd.s.st ⟨2, c, t, d⟩).res = .ok ⟨2, c', t', d.map F⟩

/-- Trained, and `inverse` maps the rows one by one. -/
def RowInv (nd : Nd σ α β) : Prop :=
  nd.s.training = false ∧ (∀ x, (nd.K.invHook nd.s.st x).st = nd.s.st ∧ (nd.K.invHook nd.s.st x).sets = []) ∧
  ∃ t c, nd.s.dtype = some t ∧ nd.s.outputDim = some c ∧ ∃ c' t' F, ∀ d,
    (nd.K.invHook nd.s.st ⟨2, c, t, d⟩).res = .ok ⟨2, c', t', d.map F⟩

theorem exec_rowFn (fl : List (Nd σ α β)) (h : ∀ nd ∈ fl, RowExec nd) (i k : Nat) :
    RowFn (fun x g => execSeq i k g x) fl := by
  induction fl generalizing i k with
  | nil =>
    intro n c t
    cases k with
    | zero => exact .inr ⟨n, c, t, id, fun d _ g hg => by simp [execSeq, hg]⟩
    | succ k =>
      refine .inl ⟨.index, fun d _ g hg => ?_⟩
      have hg : SameVis ([] : List (Nd σ α β)) g := hg
      unfold SameVis at hg
      cases hg
      rfl
  | cons nd r ih =>
    intro n c t
    cases k with
    | zero => exact .inr ⟨n, c, t, id, fun d _ g hg => by simp [execSeq, hg]⟩
    | succ k =>
      obtain ⟨hst, hp, hrow⟩ := h nd (by simp)
      have ih := ih (fun nd h' => h nd (by simp [h'])) (i + 1) k
      obtain ⟨c0, hc0⟩ := Option.ne_none_iff_exists'.1 hst.inp
      obtain ⟨t0, ht0⟩ := Option.ne_none_iff_exists'.1 hst.dt
      obtain ⟨c', t', F, hF⟩ := hrow t0 c0 ht0 hc0
      -- execution of any copy of the node
      have hex : ∀ (m : Nd σ α β) (x : Arr α), m.K = nd.K → visible m.s = visible nd.s →
          (x.ndim = 2 ∧ c0 = x.cols ∧ 0 < x.nrows →
            (execute m.K x m.s).1 = .ok ⟨2, c', t', x.data.map F⟩ ∧
            visible (execute m.K x m.s).2 = visible nd.s) ∧
          (¬ (x.ndim = 2 ∧ c0 = x.cols ∧ 0 < x.nrows) → (execute m.K x m.s).1 = .error .node) := by
        intro m x hK hv
        have hsm := stable_visible hv.symm hst
        have hv' := hv
        simp only [visible, Prod.mk.injEq] at hv'
        obtain ⟨e1, e2, e3, e4, e5, e6, e7⟩ := hv'
        have hpm : ∀ x, (m.K.execHook m.s.st x).st = m.s.st ∧ (m.K.execHook m.s.st x).sets = [] := by
          rw [hK, e7]; exact hp
        have hx := execute_stable m.K m.s hsm x hpm
        rw [e1, hc0] at hx
        constructor
        · intro hc
          rw [if_pos ⟨hc.1, by rw [hc.2.1], hc.2.2⟩] at hx
          rw [hx, hK, e7, e3, ht0]
          have hx' : refcast (some t0) x = ⟨2, c0, t0, x.data⟩ := by
            obtain ⟨xn, xc, xt, xd⟩ := x
            simp only at hc
            simp [refcast, hc.1, hc.2.1]
          rw [hx', hF]
          refine ⟨rfl, ?_⟩
          simp only [visible]
          simp only [e1, e2, e4, e5, e6, e7, ht0, hc0]
        · intro hc
          rw [if_neg] at hx
          · rw [hx]
          · rintro ⟨a, b, c⟩; exact hc ⟨a, by simpa using b, c⟩
      by_cases hshape : n = 2 ∧ c0 = c
      · obtain ⟨rfl, rfl⟩ := hshape
        rcases ih 2 c' t' with ⟨e, he⟩ | ⟨n2, c2, t2, F2, hF2⟩
        · refine .inl ⟨e, fun d hd g hg => ?_⟩
          have hg : SameVis (nd :: r) g := hg
          unfold SameVis at hg
          cases hg with
          | @cons _ m _ g' hm hg' =>
            obtain ⟨h1, h2⟩ := (hex m ⟨2, c0, t, d⟩ hm.1 hm.2).1 ⟨rfl, rfl, List.length_pos_iff.2 hd⟩
            have h3 := he (d.map F) (by simpa using hd) g' hg'
            simp only [execSeq]
            generalize execute m.K ⟨2, c0, t, d⟩ m.s = R at h1 h2
            obtain ⟨res, s'⟩ := R
            simp only at h1
            subst h1
            exact h3
        · refine .inr ⟨n2, c2, t2, F2 ∘ F, fun d hd g hg => ?_⟩
          have hg : SameVis (nd :: r) g := hg
          unfold SameVis at hg
          cases hg with
          | @cons _ m _ g' hm hg' =>
            obtain ⟨h1, h2⟩ := (hex m ⟨2, c0, t, d⟩ hm.1 hm.2).1 ⟨rfl, rfl, List.length_pos_iff.2 hd⟩
            obtain ⟨h3, h4⟩ := hF2 (d.map F) (by simpa using hd) g' hg'
            simp only [execSeq]
            generalize execute m.K ⟨2, c0, t, d⟩ m.s = R at h1 h2
            obtain ⟨res, s'⟩ := R
            simp only at h1 h2
            subst h1
            refine ⟨by simpa using h3, .cons ⟨hm.1, h2⟩ h4⟩
      · refine .inl ⟨.flowCR i .node, fun d hd g hg => ?_⟩
        have hg : SameVis (nd :: r) g := hg
        unfold SameVis at hg
        cases hg with
        | @cons _ m _ g' hm hg' =>
          have h1 := (hex m ⟨n, c, t, d⟩ hm.1 hm.2).2 (fun hh => hshape ⟨hh.1, hh.2.1⟩)
          simp only [execSeq]
          generalize execute m.K ⟨n, c, t, d⟩ m.s = R at h1
          obtain ⟨res, s'⟩ := R
          simp only at h1
          subst h1
          rfl

theorem inv_rowFn (fl : List (Nd σ α β)) (h : ∀ nd ∈ fl, RowInv nd) (i : Nat) :
    RowFn (fun x g => invSeq i g x) fl := by
  induction fl generalizing i with
  | nil =>
    intro n c t
    refine .inr ⟨n, c, t, id, fun d _ g hg => ?_⟩
    have hg : SameVis ([] : List (Nd σ α β)) g := hg
    unfold SameVis at hg
    cases hg
    exact ⟨by simp [invSeq], .nil⟩
  | cons nd r ih =>
    intro n c t
    obtain ⟨htr, hp, t0, c0, ht0, hc0, c', t', F, hF⟩ := h nd (by simp)
    have ih := ih (fun nd h' => h nd (by simp [h'])) (i + 1)
    have hex : ∀ (m : Nd σ α β) (x : Arr α), m.K = nd.K → visible m.s = visible nd.s →
        (nd.K.invertible = true → x.ndim = 2 ∧ c0 = x.cols →
          (inverse m.K x m.s).1 = .ok ⟨2, c', t', x.data.map F⟩ ∧
          visible (inverse m.K x m.s).2 = visible nd.s) ∧
        (nd.K.invertible = true → ¬ (x.ndim = 2 ∧ c0 = x.cols) → (inverse m.K x m.s).1 = .error .node) ∧
        (nd.K.invertible = false → (inverse m.K x m.s).1 = .error .notInvertible) := by
      intro m x hK hv
      have hv' := hv
      simp only [visible, Prod.mk.injEq] at hv'
      obtain ⟨e1, e2, e3, e4, e5, e6, e7⟩ := hv'
      have hpm : ∀ x, (m.K.invHook m.s.st x).st = m.s.st ∧ (m.K.invHook m.s.st x).sets = [] := by
        rw [hK, e7]; exact hp
      have hx := inverse_stable m.K m.s (e4.trans htr) (by rw [e2, hc0]; simp) hpm x
      rw [e2, hc0, hK] at hx
      refine ⟨?_, ?_, ?_⟩
      · intro hk hc
        rw [if_neg (by simp [hk]), if_pos ⟨hc.1, by rw [hc.2]⟩] at hx
        rw [hK, hx, e7, e3, ht0]
        have hx' : refcast (some t0) x = ⟨2, c0, t0, x.data⟩ := by
          obtain ⟨xn, xc, xt, xd⟩ := x
          simp only at hc
          simp [refcast, hc.1, hc.2]
        rw [hx', hF]
        refine ⟨rfl, ?_⟩
        simp only [visible]
        simp only [e1, e4, e5, e6, e7, ht0, hc0]
      · intro hk hc
        rw [if_neg (by simp [hk]), if_neg] at hx
        · rw [hK, hx]
        · rintro ⟨a, b⟩; exact hc ⟨a, by simpa using b⟩
      · intro hk
        rw [if_pos hk] at hx
        rw [hK, hx]
    rcases ih n c t with ⟨e, he⟩ | ⟨n2, c2, t2, F2, hF2⟩
    · refine .inl ⟨e, fun d hd g hg => ?_⟩
      have hg : SameVis (nd :: r) g := hg
      unfold SameVis at hg
      cases hg with
      | @cons _ m _ g' hm hg' =>
        have h3 := he d hd g' hg'
        simp only [invSeq]
        simp only at h3
        generalize invSeq (i + 1) g' ⟨n, c, t, d⟩ = R at h3
        obtain ⟨res, s'⟩ := R
        simp only at h3
        subst h3
        rfl
    · by_cases hk : nd.K.invertible = true
      · by_cases hshape : n2 = 2 ∧ c0 = c2
        · obtain ⟨rfl, rfl⟩ := hshape
          refine .inr ⟨2, c', t', F ∘ F2, fun d hd g hg => ?_⟩
          have hg : SameVis (nd :: r) g := hg
          unfold SameVis at hg
          cases hg with
          | @cons _ m _ g' hm hg' =>
            obtain ⟨h3, h4⟩ := hF2 d hd g' hg'
            obtain ⟨h1, h2⟩ := (hex m ⟨2, c0, t2, d.map F2⟩ hm.1 hm.2).1 hk ⟨rfl, rfl⟩
            simp only [invSeq]
            simp only at h3 h4
            generalize invSeq (i + 1) g' ⟨n, c, t, d⟩ = R at h3 h4
            obtain ⟨res, s'⟩ := R
            simp only at h3 h4
            subst h3
            simp only
            generalize inverse m.K ⟨2, c0, t2, d.map F2⟩ m.s = R at h1 h2
            obtain ⟨res, s''⟩ := R
            simp only at h1 h2
            subst h1
            exact ⟨by simp, .cons ⟨hm.1, h2⟩ h4⟩
        · refine .inl ⟨.flowCR i .node, fun d hd g hg => ?_⟩
          have hg : SameVis (nd :: r) g := hg
          unfold SameVis at hg
          cases hg with
          | @cons _ m _ g' hm hg' =>
            obtain ⟨h3, h4⟩ := hF2 d hd g' hg'
            have h1 := (hex m ⟨n2, c2, t2, d.map F2⟩ hm.1 hm.2).2.1 hk hshape
            simp only [invSeq]
            simp only at h3 h4
            generalize invSeq (i + 1) g' ⟨n, c, t, d⟩ = R at h3 h4
            obtain ⟨res, s'⟩ := R
            simp only at h3 h4
            subst h3
            simp only
            generalize inverse m.K ⟨n2, c2, t2, d.map F2⟩ m.s = R at h1
            obtain ⟨res, s''⟩ := R
            simp only at h1
            subst h1
            rfl
      · refine .inl ⟨.flowCR i .notInvertible, fun d hd g hg => ?_⟩
        have hg : SameVis (nd :: r) g := hg
        unfold SameVis at hg
        cases hg with
        | @cons _ m _ g' hm hg' =>
          obtain ⟨h3, h4⟩ := hF2 d hd g' hg'
          have h1 := (hex m ⟨n2, c2, t2, d.map F2⟩ hm.1 hm.2).2.2 (by simpa using hk)
          simp only [invSeq]
          simp only at h3 h4
          generalize invSeq (i + 1) g' ⟨n, c, t, d⟩ = R at h3 h4
          obtain ⟨res, s'⟩ := R
          simp only at h3 h4
          subst h3
          simp only
          generalize inverse m.K ⟨n2, c2, t2, d.map F2⟩ m.s = R at h1
          obtain ⟨res, s''⟩ := R
          simp only at h1
          subst h1
          rfl

end Mdp.Flow
