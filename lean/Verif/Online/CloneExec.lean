import Verif.Online.LayerDims
import Verif.Hinet.CloneProps

/-!
# Execution of a CloneOnlineLayer

A property of the model of `Online/Layer.lean` (layer_online.py:98-124, layer.py:271-275). No definitions are added.
-/

namespace Mdp.Online

open Py Mdp.Node Mdp.Flow Mdp.Layer

variable {σ α β : Type}

/-- C156: **what a `CloneOnlineLayer` computes.** The rows of the input are cut into `n` blocks of the input dimension `d` of the
node. If the node maps the list of all blocks (those of the first row first) row by row by `F`, then every row of the result is the
images of the blocks of this row, side by side. The node is executed once. -/
theorem clone_online_layer_execute (m0 m m1 m2 : Mem σ α β) (n d o t' : Nat) (F : List α → List α) (x : Arr α)
    (hx : x.ndim = 2 ∧ ∀ r ∈ x.data, r.length = x.cols) (hd : 0 < d) (hc : x.cols = n * d)
    (ht : m.setDtype x.dtype = (.ok (), m1)) (hi : Dims.inp m1 = some d)
    (he : m1.execute ⟨2, d, x.dtype, x.data.flatMap fun r => (List.range n).map fun j => (r.drop (j * d)).take d⟩ =
      (.ok ⟨2, o, t', (x.data.flatMap fun r => (List.range n).map fun j => (r.drop (j * d)).take d).map F⟩, m2))
    (ho : Dims.out m2 = some o) (hF : ∀ r, r.length = d → (F r).length = o) :
    ((ocloneKind m0 n).execHook m x).res =
      .ok ⟨2, n * o, t', x.data.map fun r => ((List.range n).map fun j => F ((r.drop (j * d)).take d)).flatten⟩ ∧
    ((ocloneKind m0 n).execHook m x).st = m2 ∧ ((ocloneKind m0 n).execHook m x).sets = [] := by
  have h1 := reshape_split x hx d n hd hc
  have h2 := reshape_join x.data F d n o t' x.nrows rfl (fun r hr => (hx.2 r hr).trans hc) hF
  have e : mcloneExec n x m1 =
      (.ok ⟨2, n * o, t', x.data.map fun r => ((List.range n).map fun j => F ((r.drop (j * d)).take d)).flatten⟩, m2) := by
    obtain ⟨k, rfl⟩ : ∃ k, d = k + 1 := ⟨d - 1, by omega⟩
    unfold mcloneExec
    rw [hi]
    simp only
    rw [h1]
    simp only
    rw [show m1.execute ⟨2, k + 1, x.dtype, x.data.flatMap (Mdp.Layer.blocks (k + 1) n)⟩ = _ from he]
    simp only [ho]
    rw [show (⟨2, o, t', (x.data.flatMap fun r => (List.range n).map fun j => (r.drop (j * (k + 1))).take (k + 1)).map F⟩ : Arr α) =
      ⟨2, o, t', (x.data.flatMap (Mdp.Layer.blocks (k + 1) n)).map F⟩ from rfl, h2]
    simp [Mdp.Layer.blocks, List.map_map, Function.comp_def]
  have e2 : (ocloneKind m0 n).execHook m x = mcloneDtype x.dtype (mcloneExec n x) m := rfl
  rw [e2, mcloneDtype, ht]
  simp only [e, and_self]

/-- Three references to a node of input dimension 1 that is not in training and returns its input: the hypotheses hold. -/
example : lx.ndim = 2 ∧ (∀ r ∈ lx.data, r.length = lx.cols) ∧ lx.cols = 3 * 1 ∧ isOk (lmP.setDtype lx.dtype).1 = true ∧
    Dims.inp (lmP.setDtype lx.dtype).2 = some 1 ∧
    (match ((lmP.setDtype lx.dtype).2.execute ⟨2, 1, 1, [[1], [2], [3], [4], [5], [6]]⟩) with
      | (.ok y, m) => decide (y.data = [[1], [2], [3], [4], [5], [6]] ∧ Dims.out m = some 1)
      | (.error _, _) => false) = true ∧
    (match ((ocloneKind lmP 3).execHook lmP lx).res with
      | .ok y => decide (y.data = [[1, 2, 3], [4, 5, 6]] ∧ y.cols = 3)
      | .error _ => false) = true := by
  decide +kernel

end Mdp.Online
