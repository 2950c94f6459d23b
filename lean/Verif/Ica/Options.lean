import Mathlib.Data.List.Basic

/-!
# Options of the whitening in ICA and ISFA nodes: `ICANode.__init__` and `_stop_training` (mdp/nodes/ica_nodes.py:75-128, 137-160), `FastICANode.__init__`
(469-472), `JADENode.__init__` (mdp/nodes/jade.py:86-88), `ISFANode.__init__` (mdp/nodes/isfa_nodes.py:220-231), `TDSEPNode.__init__` (ica_nodes.py:1046-1106),
`XSFANode._initialize_internal_flow` (mdp/nodes/xsfa_nodes.py:170-174); C353

A dictionary of keyword arguments belongs to the caller, who may change it. Values of arguments are opaque.
-/

namespace Mdp.IcaOptions

variable {V : Type}

/-- A dictionary of keyword arguments. -/
abbrev Dict (V : Type) := List (String × V)

inductive Err where
  /-- TypeError -/
  | type
deriving DecidableEq

/-- The arguments of `WhiteningNode.__init__` (mdp/nodes/pca_nodes.py:38-40). -/
def whiteArgs : List String := ["input_dim", "output_dim", "dtype", "svd", "reduce", "var_rel", "var_abs", "var_part"]

/-- A call `WhiteningNode(fixed…, **extra)`: an argument given twice or unknown is a TypeError; otherwise the arguments the constructor gets. -/
def whiteCall (fixed extra : Dict V) : Except Err (Dict V) :=
  if extra.any (fun kv => fixed.any fun p => p.1 = kv.1) then .error .type
  else if extra.any (fun kv => !whiteArgs.contains kv.1) then .error .type
  else .ok (fixed ++ extra)

/-- What an ICA node keeps of `white_parm` (124-127): a reference to the dictionary of the caller, or an own empty one. -/
inductive Parm where
  | own
  | callers
deriving DecidableEq

/-- `ICANode.__init__` (124-127), with which `FastICANode` and `JADENode` call it too. -/
def icaInit (parm : Option (Dict V)) : Parm := match parm with
  | none => .own
  | some _ => .callers

/-- The whitening node made by `ICANode._stop_training` (151-155): `now` is what the dictionary of the caller contains at this time. There is none if the
data are white already. -/
def icaWhite (whitened : Bool) (comp dtype : V) (p : Parm) (now : Dict V) : Option (Except Err (Dict V)) :=
  if whitened then none
  else some (whiteCall [("output_dim", comp), ("dtype", dtype)] (match p with | .own => [] | .callers => now))

/-- The whitening node made by `ISFANode.__init__` (220-231) for the white_comp that results from its arguments. -/
def isfaWhite (whitened : Bool) (inDim comp dtype : V) (parm : Option (Dict V)) : Option (Except Err (Dict V)) :=
  if whitened then none
  else some (whiteCall [("input_dim", inDim), ("output_dim", comp), ("dtype", dtype)] (match parm with | none => [] | some d => d))

/-- `TDSEPNode.__init__` (1094-1105) calls it with `white_parm = None`. -/
def tdsepWhite (whitened : Bool) (inDim comp dtype : V) (_parm : Option (Dict V)) : Option (Except Err (Dict V)) :=
  isfaWhite whitened inDim comp dtype none

/-- `d[k] = v` -/
def assign (d : Dict V) (k : String) (v : V) : Dict V :=
  if d.any (fun p => p.1 = k) then d.map fun p => if p.1 = k then (k, v) else p else d ++ [(k, v)]

/-- What `XSFANode._initialize_internal_flow` does to the dictionary of the caller (173); the same happens to that of the internal expansion (236). -/
def xsfaKwargs (inDim : V) (callers : Dict V) : Dict V := assign callers "input_dim" inDim

/-! ## Specification -/

/-- Options a whitening node has besides those the ICA node gives it. -/
def Fits (fixed : List String) (d : Dict V) : Prop := ∀ kv ∈ d, kv.1 ∈ whiteArgs ∧ kv.1 ∉ fixed

/-! ## Proofs -/

theorem whiteCall_ok (fixed extra : Dict V) (h : Fits (fixed.map Prod.fst) extra) : whiteCall fixed extra = .ok (fixed ++ extra) := by
  have h1 : extra.any (fun kv => fixed.any fun p => p.1 = kv.1) = false := by
    rw [List.any_eq_false]
    intro kv hkv
    simp only [List.any_eq_true, decide_eq_true_eq, not_exists, not_and]
    intro p hp he
    exact (h kv hkv).2 (List.mem_map.2 ⟨p, hp, he⟩)
  have h2 : extra.any (fun kv => !whiteArgs.contains kv.1) = false := by
    rw [List.any_eq_false]
    intro kv hkv
    simp [(h kv hkv).1]
  unfold whiteCall; rw [h1, h2]; rfl

theorem whiteCall_bad (fixed extra : Dict V) (h : ¬Fits (fixed.map Prod.fst) extra) : whiteCall fixed extra = .error .type := by
  unfold Fits at h
  simp only [not_forall, not_and_or, not_not, exists_prop] at h
  obtain ⟨kv, hkv, h | h⟩ := h
  · have h2 : extra.any (fun kv => !whiteArgs.contains kv.1) = true := List.any_eq_true.2 ⟨kv, hkv, by simpa using h⟩
    unfold whiteCall; rw [h2]; split <;> rfl
  · obtain ⟨p, hp, he⟩ := List.mem_map.1 h
    have h1 : extra.any (fun kv => fixed.any fun p => p.1 = kv.1) = true :=
      List.any_eq_true.2 ⟨kv, hkv, List.any_eq_true.2 ⟨p, hp, by simp [he]⟩⟩
    unfold whiteCall; rw [h1]; rfl

theorem lookup_append (a b : Dict V) (k : String) : (a ++ b).lookup k = (a.lookup k).or (b.lookup k) := by
  induction a with
  | nil => simp
  | cons p a ih =>
    rw [List.cons_append, List.lookup_cons, List.lookup_cons]
    split <;> simp [ih]

/-- C353 (ICA nodes): if the caller leaves the dictionary as it was, the whitening node is made with the number of components, the dtype, and exactly the
options in the dictionary; an option that is unknown or set by the node itself is refused with a TypeError when training is stopped. -/
theorem ica_options (comp dtype : V) (d : Dict V) :
    (Fits ["output_dim", "dtype"] d → ∃ args, icaWhite false comp dtype (icaInit (some d)) d = some (.ok args) ∧
      args.lookup "output_dim" = some comp ∧ args.lookup "dtype" = some dtype ∧
      ∀ k, k ≠ "output_dim" → k ≠ "dtype" → args.lookup k = d.lookup k) ∧
    (¬Fits ["output_dim", "dtype"] d → icaWhite false comp dtype (icaInit (some d)) d = some (.error .type)) := by
  constructor
  · intro h
    refine ⟨[("output_dim", comp), ("dtype", dtype)] ++ d, ?_, by simp, by simp [List.lookup_cons], ?_⟩
    · simp only [icaWhite, icaInit, Bool.false_eq_true, if_false]
      rw [whiteCall_ok [("output_dim", comp), ("dtype", dtype)] d h]
    · intro k h1 h2
      rw [lookup_append]
      have : List.lookup k [("output_dim", comp), ("dtype", dtype)] = none := by
        rw [List.lookup_eq_none_iff]; simp [h1, h2]
      rw [this, Option.none_or]
  · intro h
    simp only [icaWhite, icaInit, Bool.false_eq_true, if_false]
    rw [whiteCall_bad [("output_dim", comp), ("dtype", dtype)] d h]

/-- C353: without `white_parm`, and whatever dictionaries there are, only the number of components and the dtype are given. -/
theorem ica_default (comp dtype : V) (now : Dict V) :
    icaWhite false comp dtype (icaInit (none : Option (Dict V))) now = some (.ok [("output_dim", comp), ("dtype", dtype)]) ∧
      ∀ p, icaWhite true comp dtype p now = none := by
  constructor
  · simp [icaWhite, icaInit, whiteCall]
  · intro p; rfl

/-- C353, false for a dictionary that is changed after the construction: what counts is what it contains when training is stopped. -/
theorem ica_late_options_violation (comp dtype : V) (given later : Dict V) :
    icaWhite false comp dtype (icaInit (some given)) later = icaWhite false comp dtype (icaInit (some later)) later := rfl

/-- C353 (ISFA): the whitening node is made at once, with exactly the options given; an option that is unknown or set by the node itself is refused. -/
theorem isfa_options (inDim comp dtype : V) (d : Dict V) :
    (Fits ["input_dim", "output_dim", "dtype"] d → ∃ args, isfaWhite false inDim comp dtype (some d) = some (.ok args) ∧
      args.lookup "input_dim" = some inDim ∧ args.lookup "output_dim" = some comp ∧ args.lookup "dtype" = some dtype ∧
      ∀ k, k ≠ "input_dim" → k ≠ "output_dim" → k ≠ "dtype" → args.lookup k = d.lookup k) ∧
    (¬Fits ["input_dim", "output_dim", "dtype"] d → isfaWhite false inDim comp dtype (some d) = some (.error .type)) := by
  constructor
  · intro h
    refine ⟨[("input_dim", inDim), ("output_dim", comp), ("dtype", dtype)] ++ d, ?_, by simp, by simp [List.lookup_cons], by simp [List.lookup_cons], ?_⟩
    · simp only [isfaWhite, Bool.false_eq_true, if_false]
      rw [whiteCall_ok [("input_dim", inDim), ("output_dim", comp), ("dtype", dtype)] d h]
    · intro k h1 h2 h3
      rw [lookup_append]
      have : List.lookup k [("input_dim", inDim), ("output_dim", comp), ("dtype", dtype)] = none := by
        rw [List.lookup_eq_none_iff]; simp [h1, h2, h3]
      rw [this, Option.none_or]
  · intro h
    simp only [isfaWhite, Bool.false_eq_true, if_false]
    rw [whiteCall_bad [("input_dim", inDim), ("output_dim", comp), ("dtype", dtype)] d h]

/-- C353, false for TDSEP: `white_parm` is ignored. No option in it reaches the whitening node and no wrong one is refused. -/
theorem tdsep_options_violation (inDim comp dtype : V) (parm : Option (Dict V)) :
    tdsepWhite false inDim comp dtype parm = some (.ok [("input_dim", inDim), ("output_dim", comp), ("dtype", dtype)]) := by
  simp [tdsepWhite, isfaWhite, whiteCall]

/-- C353, false for XSFA: after training has begun, the dictionary the caller has given contains the dimension of the node, whatever it contained before. -/
theorem xsfa_kwargs_violation (inDim : V) (d : Dict V) : (xsfaKwargs inDim d).lookup "input_dim" = some inDim ∧
    ∀ k, k ≠ "input_dim" → (xsfaKwargs inDim d).lookup k = d.lookup k := by
  unfold xsfaKwargs assign
  split_ifs with h
  · constructor
    · induction d with
      | nil => simp at h
      | cons p d ih =>
        obtain ⟨q, w⟩ := p
        by_cases hp : q = "input_dim"
        · simp [hp, List.lookup_cons]
        · have h' : (d.any fun p => decide (p.1 = "input_dim")) = true := by simpa [hp] using h
          have hb : ("input_dim" == q) = false := by simpa using fun e => hp e.symm
          simp only [List.map_cons, if_neg hp, List.lookup_cons, hb]
          exact ih h'
    · intro k hk
      clear h
      induction d with
      | nil => rfl
      | cons p d ih =>
        obtain ⟨q, w⟩ := p
        by_cases hp : q = "input_dim"
        · have hb : (k == q) = false := by rw [hp]; simpa using hk
          have hb' : (k == "input_dim") = false := by simpa using hk
          simp only [List.map_cons, if_pos hp, List.lookup_cons, hb, hb']
          exact ih
        · simp only [List.map_cons, if_neg hp, List.lookup_cons]
          rw [ih]
  · have hn : d.lookup "input_dim" = none := by
      rw [List.lookup_eq_none_iff]
      intro p hp
      simp only [List.any_eq_true, decide_eq_true_eq, not_exists, not_and] at h
      simpa using fun e => h p hp (by simpa using e.symm)
    constructor
    · rw [lookup_append, hn]; simp [List.lookup_cons]
    · intro k hk
      rw [lookup_append]
      have hb' : (k == "input_dim") = false := by simpa using hk
      simp [List.lookup_cons, hb']

/-! ## Examples -/

example : Fits ["output_dim", "dtype"] [("svd", 1), ("reduce", 1)] := by unfold Fits; decide
example : ¬Fits ["output_dim", "dtype"] [("svd", 1), ("output_dim", 3)] := by unfold Fits; decide
example : ¬Fits ["output_dim", "dtype"] [("sdv", 1)] := by unfold Fits; decide
example : isfaWhite false 5 3 8 (some [("svd", 1)]) = some (.ok [("input_dim", 5), ("output_dim", 3), ("dtype", 8), ("svd", 1)]) ∧
    tdsepWhite false 5 3 8 (some [("svd", 1)]) = some (.ok [("input_dim", 5), ("output_dim", 3), ("dtype", 8)]) := ⟨rfl, rfl⟩
example : xsfaKwargs 4 [("degree", 2)] = [("degree", 2), ("input_dim", 4)] := by decide

end Mdp.IcaOptions
