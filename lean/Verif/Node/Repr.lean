import Mathlib.Data.List.Basic
import Init.Data.Nat.ToString

/-!
# Representations as text: `Node.__repr__` (mdp/signal_node.py:694-704), `BiNode.__repr__` (bimdp/binode.py:442-457), `Flow.__repr__` and `__str__`
(mdp/linear_flows.py:452-464), `IncSFANode.__repr__` (mdp/nodes/sfa_nodes_online.py:240-263); C350

Text is a list of characters. A node is the name of its class, its dimensions, the name of its dtype, and settings, which no representation of a
plain node shows.
-/

namespace Mdp.Repr

abbrev Str := List Char

/-- What can be seen of a node. -/
structure N (S : Type) where
  cls : Str
  inDim : Option Nat
  outDim : Option Nat
  dtype : Option Str
  settings : S

variable {S : Type}

def kIn : Str := ['i','n','p','u','t','_','d','i','m','=']
def kOut : Str := ['o','u','t','p','u','t','_','d','i','m','=']
def kType : Str := ['d','t','y','p','e','=']
def kId : Str := ['n','o','d','e','_','i','d','=']
def none' : Str := ['N','o','n','e']
def comma : Str := [',',' ']

/-- `str` of a dimension. -/
def num : Option Nat → Str
  | none => none'
  | some n => Nat.toDigits 10 n

/-- The text for the dtype (699-702). -/
def typ : Option Str → Str
  | none => none'
  | some t => '\'' :: (t ++ ['\''])

/-- `sep.join(parts)` -/
def join (sep : Str) : List Str → Str
  | [] => []
  | [a] => a
  | a :: r => a ++ sep ++ join sep r

/-- `Node.__repr__` (694-704). -/
def N.repr (n : N S) : Str :=
  n.cls ++ ['('] ++ join comma [kIn ++ num n.inDim, kOut ++ num n.outDim, kType ++ typ n.dtype] ++ [')']

/-- The text for the name of a BiNode (452-455). -/
def nid : Option Str → Str
  | none => none'
  | some t => '"' :: (t ++ ['"'])

/-- `BiNode.__repr__` (442-457). -/
def N.biRepr (n : N S) (id : Option Str) : Str :=
  n.cls ++ ['('] ++ join comma [kIn ++ num n.inDim, kOut ++ num n.outDim, kType ++ typ n.dtype, kId ++ nid id] ++ [')']

/-- `Flow.__repr__` (456-464) for a flow class and its nodes: one node on each line, below each other. -/
def flowRepr (cls : Str) (nodes : List (N S)) : Str :=
  cls ++ ['(', '['] ++ join ([',', '\n'] ++ List.replicate (cls.length + 2) ' ') (nodes.map N.repr) ++ [']', ')']

/-- `Flow.__str__` (452-454). -/
def flowStr (nodes : List (N S)) : Str := ['['] ++ join comma (nodes.map fun n => n.cls) ++ [']']

/-- The names of the arguments in `IncSFANode.__repr__` (247-262), in their order. -/
def incSfaKeys : List String :=
  ["eps", "whitening_output_dim", "remove_mean", "avg_n", "amn_params", "init_pca_vectors", "init_pca_vectors", "input_dim", "output_dim", "dtype",
   "numx_rng"]

/-- The arguments of the constructor of `IncSFANode` (29-31). -/
def incSfaArgs : List String :=
  ["eps", "whitening_output_dim", "remove_mean", "avg_n", "amn_params", "init_pca_vectors", "init_mca_vectors", "input_dim", "output_dim", "dtype",
   "numx_rng"]

/-! ## Specification -/

/-- A name of Python: no parenthesis, no quote, no comma, no bracket, no new line. -/
def Ident (s : Str) : Prop := ∀ c ∈ s, c ≠ '(' ∧ c ≠ '\'' ∧ c ≠ ',' ∧ c ≠ ']' ∧ c ≠ '\n'

/-- The class and the dtype have names. -/
def N.Ok (n : N S) : Prop := Ident n.cls ∧ ∀ t, n.dtype = some t → Ident t

/-- Two nodes look alike: class, dimensions and dtype agree. -/
def Alike (a b : N S) : Prop := a.cls = b.cls ∧ a.inDim = b.inDim ∧ a.outDim = b.outDim ∧ a.dtype = b.dtype

/-! ## Proofs -/

theorem cut_first {c : Char} : ∀ {a a' r r' : Str}, c ∉ a → c ∉ a' → a ++ c :: r = a' ++ c :: r' → a = a' ∧ r = r'
  | [], [], r, r', _, _, h => ⟨rfl, by simpa using h⟩
  | [], x :: a', r, r', _, h', h => by simp only [List.nil_append, List.cons_append, List.cons.injEq] at h; exact absurd (h.1 ▸ List.mem_cons_self) h'
  | x :: a, [], r, r', h', _, h => by simp only [List.nil_append, List.cons_append, List.cons.injEq] at h; exact absurd (h.1 ▸ List.mem_cons_self) h'
  | x :: a, y :: a', r, r', h1, h2, h => by
    simp only [List.cons_append, List.cons.injEq] at h
    have := cut_first (fun m => h1 (List.mem_cons_of_mem _ m)) (fun m => h2 (List.mem_cons_of_mem _ m)) h.2
    exact ⟨by rw [h.1, this.1], this.2⟩

theorem num_digit (n : Nat) (c : Char) (h : c ∈ Nat.toDigits 10 n) : c.isDigit = true := Nat.isDigit_of_mem_toDigits (by decide) (by decide) h

theorem num_plain (o : Option Nat) (c : Char) (h : c = ',' ∨ c = '\n') : c ∉ num o := by
  intro hm
  cases o with
  | none => rcases h with rfl | rfl <;> revert hm <;> decide
  | some n => rcases h with rfl | rfl <;> exact absurd (num_digit n _ hm) (by decide)

theorem num_inj : ∀ a b : Option Nat, num a = num b → a = b
  | none, none, _ => rfl
  | none, some n, h => absurd (num_digit n 'N' (by have h' : num none = Nat.toDigits 10 n := h; rw [← h']; decide)) (by decide)
  | some n, none, h => absurd (num_digit n 'N' (by have h' : Nat.toDigits 10 n = num none := h; rw [h']; decide)) (by decide)
  | some n, some m, h => by
    have h : Nat.toDigits 10 n = Nat.toDigits 10 m := h
    have e := congrArg (fun l => Nat.ofDigitChars 10 l 0) h
    simp only [Nat.ofDigitChars_ten_toDigits] at e
    rw [e]

theorem typ_inj : ∀ a b : Option Str, typ a = typ b → a = b
  | none, none, _ => rfl
  | none, some t, h => by simp [typ, none'] at h
  | some t, none, h => by simp [typ, none'] at h
  | some t, some u, h => by
    simp only [typ, List.cons.injEq, true_and, List.append_cancel_right_eq] at h
    rw [h]

theorem typ_plain (o : Option Str) (h : ∀ t, o = some t → Ident t) (c : Char) (hc : c = ',' ∨ c = '\n') : c ∉ typ o := by
  intro hm
  cases o with
  | none => rcases hc with rfl | rfl <;> revert hm <;> decide
  | some t =>
    have ht := h t rfl
    simp only [typ, List.mem_cons, List.mem_append, List.not_mem_nil, or_false] at hm
    rcases hm with hm | hm | hm
    · rcases hc with rfl | rfl <;> exact absurd hm (by decide)
    · have := ht c hm
      rcases hc with rfl | rfl
      · exact this.2.2.1 rfl
      · exact this.2.2.2.2 rfl
    · rcases hc with rfl | rfl <;> exact absurd hm (by decide)

/-- The text of a node, written out. -/
theorem repr_eq (n : N S) : n.repr = n.cls ++ '(' :: (kIn ++ (num n.inDim ++ ',' :: (' ' :: (kOut ++ (num n.outDim ++ ',' :: (' ' :: (kType ++ (typ n.dtype ++ [')'])))))))) := by
  simp [N.repr, join, comma]

theorem biRepr_eq (n : N S) (id : Option Str) : n.biRepr id = n.cls ++ '(' :: (kIn ++ (num n.inDim ++ ',' :: (' ' :: (kOut ++ (num n.outDim ++ ',' :: (' ' :: (kType ++
    (typ n.dtype ++ ',' :: (' ' :: (kId ++ (nid id ++ [')'])))))))))))  := by
  simp [N.biRepr, join, comma]

/-- C350 (nodes): two nodes have the same representation exactly if their classes, dimensions and dtypes agree. -/
theorem node_repr (a b : N S) (ha : a.Ok) (hb : b.Ok) : a.repr = b.repr ↔ Alike a b := by
  constructor
  · intro h
    rw [repr_eq, repr_eq] at h
    have h1 := cut_first (fun m => (ha.1 _ m).1 rfl) (fun m => (hb.1 _ m).1 rfl) h
    have h2 := List.append_cancel_left h1.2
    have h3 := cut_first (num_plain _ _ (.inl rfl)) (num_plain _ _ (.inl rfl)) h2
    have h4 := List.append_cancel_left (List.cons.inj h3.2).2
    have h5 := cut_first (num_plain _ _ (.inl rfl)) (num_plain _ _ (.inl rfl)) h4
    have h6 := List.append_cancel_left (List.cons.inj h5.2).2
    have h7 := List.append_cancel_right h6
    exact ⟨h1.1, num_inj _ _ h3.1, num_inj _ _ h5.1, typ_inj _ _ h7⟩
  · rintro ⟨h1, h2, h3, h4⟩
    rw [repr_eq, repr_eq, h1, h2, h3, h4]

theorem nid_inj : ∀ a b : Option Str, nid a = nid b → a = b
  | none, none, _ => rfl
  | none, some t, h => by simp [nid, none'] at h
  | some t, none, h => by simp [nid, none'] at h
  | some t, some u, h => by
    simp only [nid, List.cons.injEq, true_and, List.append_cancel_right_eq] at h
    rw [h]

/-- C350 (BiNodes): two BiNodes have the same representation exactly if their classes, dimensions, dtypes and names agree, whatever the names are. -/
theorem bi_repr (a b : N S) (ha : a.Ok) (hb : b.Ok) (i j : Option Str) : a.biRepr i = b.biRepr j ↔ Alike a b ∧ i = j := by
  constructor
  · intro h
    rw [biRepr_eq, biRepr_eq] at h
    have h1 := cut_first (fun m => (ha.1 _ m).1 rfl) (fun m => (hb.1 _ m).1 rfl) h
    have h2 := List.append_cancel_left h1.2
    have h3 := cut_first (num_plain _ _ (.inl rfl)) (num_plain _ _ (.inl rfl)) h2
    have h4 := List.append_cancel_left (List.cons.inj h3.2).2
    have h5 := cut_first (num_plain _ _ (.inl rfl)) (num_plain _ _ (.inl rfl)) h4
    have h6 := List.append_cancel_left (List.cons.inj h5.2).2
    have h7 := cut_first (typ_plain _ ha.2 _ (.inl rfl)) (typ_plain _ hb.2 _ (.inl rfl)) h6
    have h8 := List.append_cancel_left (List.cons.inj h7.2).2
    exact ⟨⟨h1.1, num_inj _ _ h3.1, num_inj _ _ h5.1, typ_inj _ _ h7.1⟩, nid_inj _ _ (List.append_cancel_right h8)⟩
  · rintro ⟨⟨h1, h2, h3, h4⟩, rfl⟩
    rw [biRepr_eq, biRepr_eq, h1, h2, h3, h4]

theorem repr_no_newline (n : N S) (h : n.Ok) : '\n' ∉ n.repr := by
  rw [repr_eq]
  simp only [List.mem_append, List.mem_cons, List.not_mem_nil, or_false, not_or]
  exact ⟨fun m => (h.1 _ m).2.2.2.2 rfl, by decide, by decide, num_plain _ _ (.inr rfl), by decide, by decide, by decide, num_plain _ _ (.inr rfl),
    by decide, by decide, by decide, typ_plain _ h.2 _ (.inr rfl), by decide⟩

theorem repr_ne_nil (n : N S) : n.repr ≠ [] := by simp [N.repr]

theorem join_inj (pad : Str) : ∀ (as bs : List Str), (∀ a ∈ as, '\n' ∉ a ∧ a ≠ []) → (∀ b ∈ bs, '\n' ∉ b ∧ b ≠ []) →
    join ([',', '\n'] ++ pad) as = join ([',', '\n'] ++ pad) bs → as = bs
  | [], [], _, _, _ => rfl
  | [], [b], _, hb, h => absurd h.symm (hb b (by simp)).2
  | [], b :: b' :: bs, _, hb, h => by simp [join] at h
  | [a], [], ha, _, h => absurd h (ha a (by simp)).2
  | [a], [b], _, _, h => by simp only [join] at h; rw [h]
  | [a], b :: b' :: bs, ha, _, h => by
    refine absurd ?_ (ha a (by simp)).1
    simp only [join] at h
    rw [h]; simp
  | a :: a' :: as, [], _, _, h => by simp [join] at h
  | a :: a' :: as, [b], _, hb, h => by
    refine absurd ?_ (hb b (by simp)).1
    simp only [join] at h
    rw [← h]; simp
  | a :: a' :: as, b :: b' :: bs, ha, hb, h => by
    have e : ∀ (x : Str) (r : Str), x ++ ([',', '\n'] ++ pad) ++ r = (x ++ [',']) ++ '\n' :: (pad ++ r) := by intro x r; simp
    have hj : ∀ (x y : Str) (r : List Str), join ([',', '\n'] ++ pad) (x :: y :: r) = x ++ ([',', '\n'] ++ pad) ++ join ([',', '\n'] ++ pad) (y :: r) :=
      fun _ _ _ => rfl
    rw [hj a, hj b, e, e] at h
    · have hx : ∀ x : Str, '\n' ∉ x → '\n' ∉ x ++ [','] := by intro x hx; simp [hx]
      have h1 := cut_first (hx _ (ha a (by simp)).1) (hx _ (hb b (by simp)).1) h
      have h2 := join_inj pad (a' :: as) (b' :: bs) (fun x m => ha x (by simp [m])) (fun x m => hb x (by simp [m])) (List.append_cancel_left h1.2)
      rw [List.append_cancel_right h1.1, h2]

/-- C350 (flows): two flows of plain nodes have the same representation exactly if they are of the same class and have the same number of nodes, which
look alike one by one. -/
theorem flow_repr (f g : Str) (hf : Ident f) (hg : Ident g) (as bs : List (N S)) (ha : ∀ a ∈ as, a.Ok) (hb : ∀ b ∈ bs, b.Ok) :
    flowRepr f as = flowRepr g bs ↔ f = g ∧ List.Forall₂ Alike as bs := by
  constructor
  · intro h
    unfold flowRepr at h
    have e : ∀ (x : Str) (r : Str), x ++ ['(', '['] ++ r ++ [']', ')'] = x ++ '(' :: ('[' :: (r ++ [']', ')'])) := by intro x r; simp
    rw [e, e] at h
    have h1 := cut_first (fun m => (hf _ m).1 rfl) (fun m => (hg _ m).1 rfl) h
    obtain ⟨rfl, h2⟩ := h1
    have h3 := List.append_cancel_right (List.cons.inj h2).2
    have h4 := join_inj _ _ _ (by simp only [List.mem_map]; rintro x ⟨n, hn, rfl⟩; exact ⟨repr_no_newline n (ha n hn), repr_ne_nil n⟩)
      (by simp only [List.mem_map]; rintro x ⟨n, hn, rfl⟩; exact ⟨repr_no_newline n (hb n hn), repr_ne_nil n⟩) h3
    refine ⟨rfl, ?_⟩
    clear h h2 h3
    induction as generalizing bs with
    | nil => cases bs with
      | nil => exact .nil
      | cons b bs => simp at h4
    | cons a as ih => cases bs with
      | nil => simp at h4
      | cons b bs =>
        simp only [List.map_cons, List.cons.injEq] at h4
        exact .cons ((node_repr a b (ha a (by simp)) (hb b (by simp))).1 h4.1)
          (ih bs (fun x m => ha x (by simp [m])) (fun x m => hb x (by simp [m])) h4.2)
  · rintro ⟨rfl, h⟩
    have : as.map N.repr = bs.map N.repr := by
      induction h with
      | nil => rfl
      | cons h1 _ ih =>
        rw [List.map_cons, List.map_cons, (node_repr _ _ (ha _ (by simp)) (hb _ (by simp))).2 h1,
          ih (fun x m => ha x (by simp [m])) (fun x m => hb x (by simp [m]))]
    unfold flowRepr
    rw [this]

theorem join_comma_inj : ∀ (as bs : List Str), (∀ a ∈ as, ',' ∉ a ∧ a ≠ []) → (∀ b ∈ bs, ',' ∉ b ∧ b ≠ []) → join comma as = join comma bs → as = bs
  | [], [], _, _, _ => rfl
  | [], [b], _, hb, h => absurd h.symm (hb b (by simp)).2
  | [], b :: b' :: bs, _, hb, h => by simp [join, comma] at h
  | [a], [], ha, _, h => absurd h (ha a (by simp)).2
  | [a], [b], _, _, h => by simp only [join] at h; rw [h]
  | [a], b :: b' :: bs, ha, _, h => by
    refine absurd ?_ (ha a (by simp)).1
    simp only [join] at h
    rw [h]; simp [comma]
  | a :: a' :: as, [], _, _, h => by simp [join, comma] at h
  | a :: a' :: as, [b], _, hb, h => by
    refine absurd ?_ (hb b (by simp)).1
    simp only [join] at h
    rw [← h]; simp [comma]
  | a :: a' :: as, b :: b' :: bs, ha, hb, h => by
    have e : ∀ (x : Str) (r : Str), x ++ comma ++ r = x ++ ',' :: (' ' :: r) := by intro x r; simp [comma]
    have hj : ∀ (x y : Str) (r : List Str), join comma (x :: y :: r) = x ++ comma ++ join comma (y :: r) := fun _ _ _ => rfl
    rw [hj a, hj b, e, e] at h
    · have h1 := cut_first (ha a (by simp)).1 (hb b (by simp)).1 h
      have h2 := join_comma_inj (a' :: as) (b' :: bs) (fun x m => ha x (by simp [m])) (fun x m => hb x (by simp [m])) (List.cons.inj h1.2).2
      rw [h1.1, h2]

/-- C350: `str` of a flow tells the classes of its nodes in their order. -/
theorem flow_str (as bs : List (N S)) (ha : ∀ a ∈ as, Ident a.cls ∧ a.cls ≠ []) (hb : ∀ b ∈ bs, Ident b.cls ∧ b.cls ≠ []) :
    flowStr as = flowStr bs ↔ as.map N.cls = bs.map N.cls := by
  constructor
  · intro h
    unfold flowStr at h
    rw [List.append_assoc, List.append_assoc] at h
    refine join_comma_inj _ _ ?_ ?_ (List.append_cancel_right (List.append_cancel_left h))
    · simp only [List.mem_map]; rintro x ⟨n, hn, rfl⟩; exact ⟨fun m => ((ha n hn).1 _ m).2.2.1 rfl, (ha n hn).2⟩
    · simp only [List.mem_map]; rintro x ⟨n, hn, rfl⟩; exact ⟨fun m => ((hb n hn).1 _ m).2.2.1 rfl, (hb n hn).2⟩
  · intro h
    unfold flowStr
    rw [h]

/-- C350, false: the comment in `Flow.__repr__` says that evaluating the text gives an object with the same value; but no setting is shown: flows whose
nodes differ in their settings have the same text. -/
theorem flow_repr_violation (f : Str) (n : N S) (s s' : S) (_ : s ≠ s') : flowRepr f [{ n with settings := s }] = flowRepr f [{ n with settings := s' }] := rfl

/-- C350, false: the text of an `IncSFANode` names one argument twice, which is no expression of Python, and leaves out `init_mca_vectors`. -/
theorem incsfa_repr_violation : ¬incSfaKeys.Nodup ∧ "init_mca_vectors" ∈ incSfaArgs ∧ "init_mca_vectors" ∉ incSfaKeys := by decide +kernel

/-! ## Examples -/

def exPca : N Bool := ⟨['P','C','A'], some 12, none, some ['f','l','o','a','t','6','4'], true⟩
def exSfa : N Bool := ⟨['S','F','A'], none, some 3, none, false⟩

example : exPca.repr = "PCA(input_dim=12, output_dim=None, dtype='float64')".toList := by decide +kernel

example : exSfa.biRepr (some ['a']) = "SFA(input_dim=None, output_dim=3, dtype=None, node_id=\"a\")".toList := by decide +kernel

example : flowRepr ['F','l','o','w'] [exSfa, exSfa] =
    "Flow([SFA(input_dim=None, output_dim=3, dtype=None),\n      SFA(input_dim=None, output_dim=3, dtype=None)])".toList := by decide +kernel

example : flowStr [exPca, exSfa] = "[PCA, SFA]".toList := by decide +kernel

instance (s : Str) : Decidable (Ident s) := by unfold Ident; infer_instance

example : exPca.Ok ∧ exSfa.Ok ∧ Ident ['F','l','o','w'] :=
  ⟨⟨by decide, by intro t h; injection h with h; subst h; decide⟩, ⟨by decide, by intro t h; cases h⟩, by decide⟩

end Mdp.Repr
