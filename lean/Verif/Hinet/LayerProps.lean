import Verif.Hinet.LayerLemmas

/-! # Properties of layers -/

namespace Mdp.Layer

open Py Mdp.Node Mdp.Flow

variable {σ α β : Type}

/-- States of `Layer(nodes, dtype)` after any history of public calls, each of which may have raised. -/
inductive LayerReachable (nodes : List (Nd σ α β)) : St (List (Nd σ α β)) α β → Prop
  | init {dtype L} (h : layerInit nodes dtype = .ok L) : LayerReachable nodes L.s
  | call {s} (c : Call α β) (h : LayerReachable nodes s) : LayerReachable nodes (c.run (layerKind nodes) s)
  | exec {s} (x : Arr α) (h : LayerReachable nodes s) :
      LayerReachable nodes (Layer.execute (layerKind nodes) x s).2

/-- What is assumed about an inner node: its class is sane, `_execute` changes nothing and returns what the
declared dimensions say, and the node itself is reachable. -/
structure InnerOK (nd : Nd σ α β) : Prop where
  sane : Sane nd.K
  pure : PureExec nd.K
  honest : Honest nd.K
  reach : Inv nd.K nd.s

theorem innerOK_of_reachable (nd : Nd σ α β) (h1 : Sane nd.K) (h2 : PureExec nd.K) (h3 : Honest nd.K)
    (h4 : Reachable nd.K nd.s) : InnerOK nd := ⟨h1, h2, h3, reachable_inv h1 h4⟩

theorem innerOK_robust : Robust (InnerOK : Nd σ α β → Prop) := by
  refine ⟨fun m n h hm => ?_⟩
  have := h.inv hm.sane hm.reach
  exact ⟨h.K ▸ hm.sane, h.K ▸ hm.pure, h.K ▸ hm.honest, h.K ▸ this⟩

theorem init_st {σ : Type} (K : Kind σ α β) (i o t : Option Nat) (st : σ) : (init K i o t st).2.st = st := by
  have p := sameSt_pre (σ := σ) (α := α) (β := β)
  have h : M.Moves (SameSt (σ := σ) (α := α) (β := β)) (do setInputDim K i; setOutputDim K o; setDtype K t) :=
    .bind p (setInputDim_st K i) fun _ => .bind p (setOutputDim_st K o) fun _ => setDtype_st K t
  exact h _

theorem layerInit_st (nodes : List (Nd σ α β)) (dtype : Option Nat) (L : Nd (List (Nd σ α β)) α β)
    (h : layerInit nodes dtype = .ok L) : L.K = layerKind nodes ∧ AdvL nodes L.s.st := by
  unfold layerInit at h
  split at h
  · cases h
  · next t _ =>
    simp only at h
    split at h
    · cases h
    · next s hs =>
      have hst := congrArg (fun r => r.2.st) hs
      simp only [init_st] at hst
      split at h
      · cases h
      · cases h
        refine ⟨rfl, ?_⟩
        simp only [← hst]
        cases t with
        | none => exact .refl _
        | some t => exact setDtypes_adv t nodes

theorem layer_inner {nodes : List (Nd σ α β)} {P : Nd σ α β → Prop} (hP : Robust P) (hn : ∀ nd ∈ nodes, P nd)
    {s : St (List (Nd σ α β)) α β} (h : LayerReachable nodes s) : ∀ nd ∈ s.st, P nd := by
  induction h with
  | init h => exact hP.list (layerInit_st nodes _ _ h).2 hn
  | call c _ ih => exact (layer_hookKeeps nodes hP).keeps_calls [c] _ ih
  | exec x _ ih => exact layerExecute_keeps nodes hP x _ ih

/-- C20: whatever happened to a layer before, if `layer.execute(x)` returns `y`, then afterwards every inner
node is trained, and `y` is the column-wise concatenation of what the inner nodes give for their own block of
columns of `x`: the blocks are consecutive, as wide as the input dimension of their node, the width of `y` is
the sum of the output dimensions, and row `k` of `y` comes from row `k` of each block. -/
theorem layer_execute_concat (nodes : List (Nd σ α β)) (hn : ∀ nd ∈ nodes, InnerOK nd)
    (s s' : St (List (Nd σ α β)) α β) (hr : LayerReachable nodes s) (x y : Arr α)
    (h : Layer.execute (layerKind nodes) x s = (.ok y, s')) :
    ∃ vs : List (Arr α), vs.length = s'.st.length ∧
      (∀ i nd, s'.st[i]? = some nd → ∃ v w, vs[i]? = some v ∧ nd.s.inputDim = some w ∧ Stable nd.s ∧
        (execute nd.K (colBlock x (offset s'.st i) w) nd.s).1 = .ok v) ∧
      y.ndim = 2 ∧ y.nrows = x.nrows ∧ outDimSum s'.st = some y.cols ∧
      ∀ k, k < x.nrows → y.data[k]? = some ((vs.map fun v => (v.data[k]?).getD []).flatten) := by
  have hg := layer_inner innerOK_robust hn hr
  unfold Layer.execute at h
  obtain ⟨_, s1, h1, h⟩ := M.bind_eq_ok h
  have hg1 : ∀ nd ∈ s1.st, InnerOK nd := by
    have := innerOK_robust.list (preWith_adv (layerKind nodes) _ (layerPre_adv x) s) hg
    rw [h1] at this; exact this
  obtain ⟨s2, h2, hres, hst⟩ := execute_ok_hook _ _ _ _ _ h
  have hg2 : ∀ nd ∈ s2.st, InnerOK nd := by
    have := (layer_hookKeeps nodes innerOK_robust).keeps_preExec x s1 hg1
    rw [h2] at this; exact this
  simp only [layerKind, withDtype] at hres hst
  have hadv := setDtypes_adv (refcast s2.dtype x).dtype s2.st
  generalize setDtypes (refcast s2.dtype x).dtype s2.st = R at hres hst hadv
  obtain ⟨r, ns⟩ := R
  cases r with
  | error e => cases hres
  | ok u =>
    simp only at hres hst hadv
    have hg3 := innerOK_robust.list hadv hg2
    generalize hE : execAll (refcast s2.dtype x) none 0 ns = E at hres hst
    obtain ⟨r, ns'⟩ := E
    simp only at hres hst
    subst hres
    rw [hst]
    obtain ⟨vs, o, hruns, hsum, hacc, _⟩ := execAll_ok _ _ _ none y 0 0 (fun _ => [])
      (fun nd hnd => ⟨(hg3 nd hnd).honest, (hg3 nd hnd).reach⟩) ⟨fun _ => ⟨rfl, fun _ => rfl⟩, by simp⟩ hE
    obtain ⟨e1, e2, e3, e4⟩ := hacc.some y rfl
    obtain ⟨g1, g2⟩ := runs_get x _ 0 ns ns' vs hruns
      (fun nd hnd => ⟨(hg3 nd hnd).sane, (hg3 nd hnd).pure, (hg3 nd hnd).reach⟩)
    refine ⟨vs, g1, ?_, e1, e3, ?_, ?_⟩
    · intro i nd hi
      obtain ⟨v, w, f⟩ := g2 i nd hi
      rw [Nat.zero_add] at f
      exact ⟨v, w, f⟩
    · rw [hsum, e2]; simp
    · intro k hk
      simpa using e4 k hk

end Mdp.Layer
