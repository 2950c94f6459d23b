import Verif.Copy.NodeCopy

/-!
# Copies and concatenation of nodes and flows (C230-C233)
-/

namespace Mdp.Copy

variable {σ : Type}

/-! ## C230: deep copies -/

theorem Same.trans {H K L : Heap σ} {r s t : Nat} (h : Same H r K s) (h' : Same K s L t) : Same H r L t :=
  ⟨fun p => (h.looks p).trans (h'.looks p), fun p q => (h.shared p q).trans (h'.shared p q)⟩

theorem same_shift (H : Heap σ) (r : Nat) : Same H r (H ++ H.map (Cell.shift H.length)) (r + H.length) := by
  constructor
  · intro p
    simp only [look, follow_shift]
    cases follow H r p with
    | none => rfl
    | some o =>
      simp only [Option.map_some, Option.bind_some, get_shift, Option.map_map]
      congr 1
      funext c
      exact (label_shift _ c).symm
  · intro p q
    rw [follow_shift, follow_shift]
    constructor
    · intro h; rw [h]
    · intro h
      exact Option.map_injective (fun a b h => Nat.add_right_cancel h) h

/-- **C230**: a copy of a flow looks the same as the flow, along all paths, and shares objects within itself exactly where the flow
does; no object belongs to both; the flow is left as it is. -/
theorem flow_copy (ok : σ → Bool) (H H' : Heap σ) (f f' : Nat) (hs : Sound H) (hf : f < H.length)
    (h : flowCopy ok H f = (.ok f', H')) :
    Same H f H' f' ∧ Apart H' f f' ∧ Same H f H' f ∧ ∀ o, o < H.length → H'[o]? = H[o]? := by
  obtain ⟨rfl, rfl⟩ := deepcopy_ok h
  refine ⟨same_shift H f, ?_, same_of_eq (closed_all hs) (fun i hi => (get_old hi).symm) hf, fun o ho => get_old ho⟩
  exact apart_of_sets (closed_new hs) (closed_old hs _) (fun i hi => by
    rintro hi'
    have h1 : H.length ≤ i := hi.1
    have h2 : i < H.length := hi'
    omega) hf ⟨by simp, by show f + H.length < _; omega⟩

/-- **C230**: the same for a node that is not a `FlowNode`. -/
theorem node_copy (ok : σ → Bool) (lim : Nat) (H H' : Heap σ) (n n' : Nat) (s : σ) (hs : Sound H) (hn : H[n]? = some (.node s))
    (h : nodeCopy ok (lim + 1) H n = (.ok n', H')) :
    H'[n']? = some (.node s) ∧ n ≠ n' ∧ ∀ o, o < H.length → H'[o]? = H[o]? := by
  simp only [nodeCopy, hn] at h
  obtain ⟨rfl, rfl⟩ := deepcopy_ok h
  refine ⟨by rw [get_shift, hn]; rfl, ?_, fun o ho => get_old ho⟩
  have := get_lt hn
  omega

/-- **C230**: objects that are apart stay independent: whatever is done to objects that can be reached from one of them cannot be
seen from the other. -/
theorem apart_independent (H K : Heap σ) (r r' : Nat) (hs : Sound H) (hr : r < H.length) (ha : Apart H r r')
    (hc : ChangedFrom H r' K) : Same H r K r := by
  refine same_of_eq (S := {o | ∃ p, follow H r p = some o}) ?_ ?_ ⟨[], by simp [follow, hr]⟩
  · rintro i ⟨p, hp⟩ c hc k hk
    obtain ⟨j, hj⟩ := List.mem_iff_getElem?.1 hk
    refine ⟨p ++ [j], ?_⟩
    rw [follow_append, hp]
    simp [follow, hc, hj, hs _ _ hc _ hk]
  · rintro i ⟨p, hp⟩
    have hi := follow_lt hp
    have hg : H[i]? = some H[i] := List.getElem?_eq_getElem hi
    rw [hg, hc i _ hg fun q hq => ha p q i hp hq]

theorem Apart.symm {H : Heap σ} {r r' : Nat} (h : Apart H r r') : Apart H r' r := fun p q o hp hq => h q p o hq hp

/-- **C230**: copying fails if and only if some node of the flow cannot be copied, and then leaves everything as it is. -/
theorem flow_copy_error (ok : σ → Bool) (H : Heap σ) (f : Nat) (hs : Sound H) (hf : f < H.length) :
    (∀ e H', flowCopy ok H f = (.error e, H') → H' = H) ∧
    ((∃ e H', flowCopy ok H f = (.error e, H')) ↔
      ∃ p s, (look H f p = some (.node s) ∨ look H f p = some (.flowNode s)) ∧ ok s = false) := by
  refine ⟨fun e H' h => deepcopy_error h, ?_⟩
  have key : (∃ r' c, Reach H f r' ∧ H[r']? = some c ∧ c.copyable ok = false) ↔
      ∃ p s, (look H f p = some (.node s) ∨ look H f p = some (.flowNode s)) ∧ ok s = false := by
    constructor
    · rintro ⟨r', c, h1, h2, h3⟩
      obtain ⟨p, hp⟩ := reach_follow hs hf h1
      cases c with
      | node s => exact ⟨p, s, Or.inl (by simp [look, hp, h2, Cell.label]), h3⟩
      | wrap g s => exact ⟨p, s, Or.inr (by simp [look, hp, h2, Cell.label]), h3⟩
      | flow a => cases h3
      | list l => cases h3
    · rintro ⟨p, s, hl, hb⟩
      have : ∃ o c, follow H f p = some o ∧ H[o]? = some c ∧ (c.label = .node s ∨ c.label = .flowNode s) := by
        simp only [look] at hl
        cases hp : follow H f p with
        | none => simp [hp] at hl
        | some o =>
          have hlt := follow_lt hp
          have hg : H[o]? = some H[o] := List.getElem?_eq_getElem hlt
          simp only [hp, Option.bind_some, hg, Option.map_some, Option.some.injEq] at hl
          exact ⟨o, _, rfl, hg, hl⟩
      obtain ⟨o, c, ho, hc, hl⟩ := this
      refine ⟨o, c, follow_reach ho, hc, ?_⟩
      cases c with
      | node s' =>
        rcases hl with hl | hl
        · cases hl; exact hb
        · cases hl
      | wrap g s' =>
        rcases hl with hl | hl
        · cases hl
        · cases hl; exact hb
      | flow a => rcases hl with hl | hl <;> cases hl
      | list l => rcases hl with hl | hl <;> cases hl
  rw [← key]
  unfold flowCopy deepcopy
  split
  · rename_i h
    exact ⟨fun _ => h, fun _ => ⟨_, _, rfl⟩⟩
  · rename_i h
    exact ⟨fun ⟨e, H', h'⟩ => (nomatch h'), fun h' => absurd h' h⟩

/-! ## C231: `FlowNode.copy` -/

/-- **C231**: a copy of a `FlowNode` looks like the original, the original and all other nodes look as before, and no object
belongs to both. -/
theorem flownode_copy (ok : σ → Bool) (lim : Nat) (H H' : Heap σ) (n n' : Nat) (t : Tree σ) (hs : Sound H) (hn : n < H.length)
    (ht : Looks H n t) (h : nodeCopy ok lim H n = (.ok n', H')) :
    Looks H' n' t ∧ (∀ m u, Looks H m u → Looks H' m u) ∧ Apart H' n n' ∧ Sound H' := by
  have m := nodeCopy_good ok lim H n n' H' hs hn h
  obtain ⟨k, hk⟩ := ht
  obtain ⟨S, G, sep⟩ := m.sep
  obtain ⟨_, hc⟩ := sep.old {i | i < H.length} (closed_all hs) (fun _ => id) (by simpa using hn)
  refine ⟨?_, fun m u ⟨k, hu⟩ => ⟨k, looksAt_evolve ‹Made _ _ _ _›.evolve _ _ _ hu⟩, ?_, m.sound⟩
  · have := m.looks k [t] (.cons hk .nil)
    cases this with
    | cons h _ => exact ⟨k, h⟩
  · refine apart_of_sets sep.closed hc ?_ (Or.inl hn) (sep.inS n' (by simp))
    rintro i hi (h | h)
    · have := (sep.newS i hi).1
      have h' : i < H.length := h
      omega
    · exact sep.disj i hi h

/-! ### Flow nodes of simple nodes -/

/-- The nodes are simple nodes that can be copied. -/
def Leaves (ok : σ → Bool) (H : Heap σ) (l : List Nat) : Prop := ∀ m ∈ l, ∃ s, H[m]? = some (.node s) ∧ ok s = true

theorem deepcopy_leaf {ok : σ → Bool} {H : Heap σ} {m : Nat} {s : σ} (h : H[m]? = some (.node s)) (hok : ok s = true) :
    deepcopy ok H m = (.ok (m + H.length), H ++ H.map (Cell.shift H.length)) := by
  unfold deepcopy
  rw [if_neg]
  rintro ⟨r', c, hr, hc, hb⟩
  cases hr with
  | refl => rw [h] at hc; cases hc; rw [Cell.copyable, hok] at hb; cases hb
  | step h1 h2 _ => rw [h] at h1; cases h1; simp [Cell.kids] at h2

theorem copyAll_leaves (ok : σ → Bool) (lim : Nat) (H : Heap σ) (l : List Nat) (hl : Leaves ok H l) :
    ∃ l' A, copyAll (nodeCopy ok (lim + 1)) H l = (.ok l', H ++ A) := by
  induction l generalizing H with
  | nil => exact ⟨[], [], by simp [copyAll]⟩
  | cons m l ih =>
    obtain ⟨s, hm, hok⟩ := hl m (by simp)
    obtain ⟨l', A, h⟩ := ih (H ++ H.map (Cell.shift H.length)) (fun m hm => by
      obtain ⟨s, h1, h2⟩ := hl m (by simp [hm])
      exact ⟨s, by rw [get_old (get_lt h1), h1], h2⟩)
    refine ⟨(m + H.length) :: l', H.map (Cell.shift H.length) ++ A, ?_⟩
    have h1 : nodeCopy ok (lim + 1) H m = (.ok (m + H.length), H ++ H.map (Cell.shift H.length)) := by
      simp only [nodeCopy, hm]
      exact deepcopy_leaf hm hok
    simp only [copyAll, h1, h, List.append_assoc]

theorem slice_total {lim d : Nat} {H : Heap σ} {f : Nat} {l : List Nat} (h : Nodes H d f l) (hd : d ≤ lim) :
    ∃ old H', slice lim H f = .ok (old, H') := by
  induction lim generalizing f d with
  | zero => cases h <;> omega
  | succ lim ih =>
    cases h with
    | plain h1 h2 => simp only [slice, h1, h2]; exact ⟨_, _, rfl⟩
    | @nested _ a d _ h1 h2 =>
      obtain ⟨b, hb⟩ : ∃ b, H[a]? = some (.flow b) := by cases h2 <;> exact ⟨_, by assumption⟩
      obtain ⟨old, H', h⟩ := ih h2 (by omega)
      simp only [slice, h1, hb, h]; exact ⟨_, _, rfl⟩

theorem slice_limit {lim d : Nat} {H : Heap σ} {f : Nat} {l : List Nat} (h : Nodes H d f l) (hd : lim < d) :
    slice lim H f = .error .recursion := by
  induction lim generalizing f d with
  | zero => rfl
  | succ lim ih =>
    cases h with
    | plain h1 h2 => omega
    | @nested _ a d _ h1 h2 =>
      obtain ⟨b, hb⟩ : ∃ b, H[a]? = some (.flow b) := by cases h2 <;> exact ⟨_, by assumption⟩
      simp only [slice, h1, hb, ih h2 (by omega)]

/-- The result of copying a `FlowNode` of simple nodes. -/
theorem copy_step (ok : σ → Bool) (lim : Nat) (H : Heap σ) (n f d : Nat) (s : σ) (l : List Nat) (hs : Sound H)
    (hn : H[n]? = some (.wrap f s)) (hN : Nodes H d f l) (hl : Leaves ok H l) (hd : d ≤ lim + 1) :
    ∃ H', (ok s = true → ∃ n', nodeCopy ok (lim + 2) H n = (.ok n', H') ∧ Nodes H' (d + 1) f l) ∧
      (ok s = false → nodeCopy ok (lim + 2) H n = (.error .copy, H') ∧ H'[f]? = some (.flow none)) := by
  obtain ⟨old, H1, hx⟩ := slice_total hN hd
  obtain ⟨A, d', l1, rfl, hN', hd', ho1, ho2, hK, hA⟩ := slice_ok hx
  obtain ⟨rfl, rfl⟩ := nodes_unique hN hN'
  have hN1 : Nodes (H ++ A) d old l := hK _ fun _ _ _ => rfl
  have hy := (nodes_iff (lim + 1) (H ++ A) old l).2 ⟨d, hd, hN1⟩
  obtain ⟨l', B, hz⟩ := copyAll_leaves ok lim (H ++ A) l (fun m hm => by
      obtain ⟨s, h1, h2⟩ := hl m hm
      exact ⟨s, by rw [get_old (get_lt h1), h1], h2⟩)
  have hfl : f < H.length := hs _ _ hn f (by simp [Cell.kids])
  obtain ⟨a, hfa⟩ : ∃ a, H[f]? = some (.flow a) := by cases hN <;> exact ⟨_, by assumption⟩
  have hnf : n ≠ f := by rintro rfl; rw [hn] at hfa; cases hfa
  have hn3 : ((H ++ A ++ B).set f (.flow none))[n]? = some (.wrap f s) := by
    rw [List.getElem?_set, if_neg hnf.symm, List.append_assoc, get_old (get_lt hn), hn]
  have hf3 : ((H ++ A ++ B).set f (.flow none))[f]? = some (.flow none) := by
    rw [List.getElem?_set, if_pos rfl, if_pos (by simp; omega)]
  have hreach : ∀ r', Reach ((H ++ A ++ B).set f (.flow none)) n r' → r' = n ∨ r' = f := by
    intro r' h
    cases h with
    | refl => exact Or.inl rfl
    | step h1 h2 h3 =>
      rw [hn3] at h1
      cases h1
      simp only [Cell.kids, List.mem_cons, List.not_mem_nil, or_false] at h2
      subst h2
      cases h3 with
      | refl => exact Or.inr rfl
      | step h4 h5 _ => rw [hf3] at h4; cases h4; simp [Cell.kids] at h5
  cases hb : ok s with
  | true =>
    have hdc : deepcopy ok ((H ++ A ++ B).set f (.flow none)) n = (.ok (n + ((H ++ A ++ B).set f (.flow none)).length),
        (H ++ A ++ B).set f (.flow none) ++ ((H ++ A ++ B).set f (.flow none)).map (Cell.shift ((H ++ A ++ B).set f (.flow none)).length)) := by
      unfold deepcopy
      rw [if_neg]
      rintro ⟨r', c, h1, h2, h3⟩
      rcases hreach r' h1 with rfl | rfl
      · rw [hn3] at h2; cases h2; rw [Cell.copyable, hb] at h3; cases h3
      · rw [hf3] at h2; cases h2; cases h3
    refine ⟨final (H ++ A ++ B) f old l', ?_, fun h => by cases h⟩
    intro _
    have hc : nodeCopy ok (lim + 2) H n = (.ok (n + (H ++ A ++ B).length), final (H ++ A ++ B) f old l') := by
      rw [nodeCopy]
      simp only [hn, hx, hy, hz, hdc, List.length_set]
      simp [final]
    refine ⟨_, hc, .nested (final_f (by simp; omega) _ _) (hK _ fun i h1 h2 => ?_)⟩
    rw [final_old (by simp at h2 ⊢; omega) (by omega), get_old h2]
  | false =>
    refine ⟨(H ++ A ++ B).set f (.flow none), (fun h => nomatch h), fun _ => ⟨?_, hf3⟩⟩
    rw [nodeCopy]
    simp only [hn, hx, hy, hz]
    unfold deepcopy
    rw [if_pos ⟨n, _, .refl _, hn3, by rw [Cell.copyable, hb]⟩]

/-- **C231**: copying a `FlowNode` of simple nodes that can be copied succeeds while the recursion limit allows it. -/
theorem flownode_copy_succeeds (ok : σ → Bool) (lim : Nat) (H : Heap σ) (n f d : Nat) (s : σ) (l : List Nat) (hs : Sound H)
    (hn : H[n]? = some (.wrap f s)) (hN : Nodes H d f l) (hl : Leaves ok H l) (hd : d ≤ lim + 1) (hok : ok s = true) :
    ∃ n' H', nodeCopy ok (lim + 2) H n = (.ok n', H') := by
  obtain ⟨H', h, _⟩ := copy_step ok lim H n f d s l hs hn hN hl hd
  obtain ⟨n', h, _⟩ := h hok
  exact ⟨n', H', h⟩

/-- **C231**: but it changes the original: after every successful copy, adding the flow of the original to any flow raises a
TypeError, and so does extending it in place by a flow. -/
theorem flownode_copy_changes_false (ok : σ → Bool) (lim : Nat) (H H' : Heap σ) (n n' f d : Nat) (s : σ) (l : List Nat)
    (hs : Sound H) (hn : H[n]? = some (.wrap f s)) (hN : Nodes H d f l) (hl : Leaves ok H l) (hd : d ≤ lim + 1)
    (h : nodeCopy ok (lim + 2) H n = (.ok n', H')) :
    (∀ g l' d' lim', Nodes H' d' g l' → d' ≤ lim' → flowAdd lim' H' g f = (.error .typeError, H')) ∧
    (∀ g l' lim', Nodes H' 1 g l' → flowIadd (lim' + 1) H' f g = (.error .typeError, H')) := by
  have hok : ok s = true := by
    obtain ⟨K, _, h2⟩ := copy_step ok lim H n f d s l hs hn hN hl hd
    cases hb : ok s with
    | true => rfl
    | false => rw [(h2 hb).1] at h; cases h
  obtain ⟨K, h1, _⟩ := copy_step ok lim H n f d s l hs hn hN hl hd
  obtain ⟨m, h1, hN'⟩ := h1 hok
  rw [h] at h1
  cases h1
  cases hN' with
  | plain _ h2 => cases hN
  | @nested _ a d l h1 h2 =>
    obtain ⟨b, hb⟩ : ∃ b, H'[a]? = some (.flow b) := by cases h2 <;> exact ⟨_, by assumption⟩
    constructor
    · intro g l' d' lim' hg hd'
      have := (nodes_iff lim' H' g l').2 ⟨d', hd', hg⟩
      simp only [flowAdd, this, h1, hb]
    · intro g l' lim' hg
      cases hg with
      | plain g1 g2 => simp only [flowIadd, h1, g1, hb, g2]
      | nested g1 g2 => cases g2

/-- The memory after `k` attempts to copy the node. -/
noncomputable def again (ok : σ → Bool) (lim : Nat) (n : Nat) (H : Heap σ) : Nat → Heap σ
  | 0 => H
  | k + 1 => (nodeCopy ok lim (again ok lim n H k) n).2

/-- **C231**: and a `FlowNode` can be copied only a limited number of times, whatever the recursion limit: each copy nests its flow
one level deeper. -/
theorem flownode_copy_often_false (ok : σ → Bool) (lim : Nat) (H : Heap σ) (n f : Nat) (s : σ) (l : List Nat) (hs : Sound H)
    (hn : H[n]? = some (.wrap f s)) (hN : Nodes H 1 f l) (hl : Leaves ok H l) (hok : ok s = true) :
    (∀ k, k ≤ lim → ∃ n' K, nodeCopy ok (lim + 2) (again ok (lim + 2) n H k) n = (.ok n', K)) ∧
    nodeCopy ok (lim + 2) (again ok (lim + 2) n H (lim + 1)) n = (.error .recursion, again ok (lim + 2) n H (lim + 1)) := by
  have key : ∀ k, k ≤ lim + 1 → Sound (again ok (lim + 2) n H k) ∧ (again ok (lim + 2) n H k)[n]? = some (.wrap f s) ∧
      Nodes (again ok (lim + 2) n H k) (k + 1) f l ∧ Leaves ok (again ok (lim + 2) n H k) l := by
    intro k
    induction k with
    | zero => exact fun _ => ⟨hs, hn, hN, hl⟩
    | succ k ih =>
      intro hk
      obtain ⟨h1, h2, h3, h4⟩ := ih (by omega)
      obtain ⟨K, hc, _⟩ := copy_step ok lim _ n f (k + 1) s l h1 h2 h3 h4 (by omega)
      obtain ⟨n', hc, hN'⟩ := hc hok
      have m := nodeCopy_good ok (lim + 2) _ n n' K h1 (get_lt h2) hc
      have he : again ok (lim + 2) n H (k + 1) = K := by simp only [again, hc]
      rw [he]
      refine ⟨m.sound, m.evolve.wrap _ _ _ h2, hN', fun x hx => ?_⟩
      obtain ⟨s', hs', ho⟩ := h4 x hx
      exact ⟨s', m.evolve.node _ _ hs', ho⟩
  constructor
  · intro k hk
    obtain ⟨h1, h2, h3, h4⟩ := key k (by omega)
    exact flownode_copy_succeeds ok lim _ n f _ s l h1 h2 h3 h4 (by omega) hok
  · obtain ⟨h1, h2, h3, h4⟩ := key (lim + 1) (le_refl _)
    generalize again ok (lim + 2) n H (lim + 1) = K at h1 h2 h3 h4 ⊢
    rw [nodeCopy]
    simp only [h2, slice_limit h3 (by omega : lim + 1 < lim + 1 + 1)]

/-- **C231**: if the `FlowNode` itself cannot be copied, then the attempt leaves it without its nodes. -/
theorem flownode_copy_crash_false (ok : σ → Bool) (lim : Nat) (H : Heap σ) (n f d : Nat) (s : σ) (l : List Nat) (hs : Sound H)
    (hn : H[n]? = some (.wrap f s)) (hN : Nodes H d f l) (hl : Leaves ok H l) (hd : d ≤ lim + 1) (hok : ok s = false) :
    ∃ H', nodeCopy ok (lim + 2) H n = (.error .copy, H') ∧ H'[f]? = some (.flow none) := by
  obtain ⟨H', _, h⟩ := copy_step ok lim H n f d s l hs hn hN hl hd
  exact ⟨H', h hok⟩

/-- A `FlowNode` with a flow in which a node occurs twice. -/
def exTwice : Heap Nat := [.node 7, .list [0, 0], .flow (some 1), .wrap 2 5]

theorem exTwice_ok : Sound exTwice ∧ exTwice[3]? = some (.wrap 2 5) ∧ Nodes exTwice 1 2 [0, 0] ∧
    Leaves (fun _ => true) exTwice [0, 0] ∧ Looks exTwice 3 (.flowNode 5 [.node 7, .node 7]) := by
  have hN : Nodes exTwice 1 2 [0, 0] := .plain (a := 1) rfl rfl
  refine ⟨?_, rfl, hN, ?_, ⟨2, 2, 1, _, rfl, hN, .cons rfl (.cons rfl .nil)⟩⟩
  · intro o c hc k hk
    match o, hc with
    | 0, hc => cases hc; simp [Cell.kids] at hk
    | 1, hc => cases hc; simp [Cell.kids] at hk; simp [hk, exTwice]
    | 2, hc => cases hc; simp [Cell.kids] at hk; simp [hk, exTwice]
    | 3, hc => cases hc; simp [Cell.kids] at hk; simp [hk, exTwice]
    | o + 4, hc => simp [exTwice] at hc
  · intro m hm
    simp at hm
    subst hm
    exact ⟨7, rfl, rfl⟩

/-- Non-vacuity of C230 and C231. -/
example : ∃ f' H', flowCopy (fun _ => true) exTwice 2 = (.ok f', H') := by
  unfold flowCopy deepcopy
  rw [if_neg]
  · exact ⟨_, _, rfl⟩
  · rintro ⟨r', c, _, _, h⟩
    cases c <;> cases h

example := flownode_copy_succeeds (fun _ => true) 0 exTwice 3 2 1 5 [0, 0] exTwice_ok.1 exTwice_ok.2.1 exTwice_ok.2.2.1
  exTwice_ok.2.2.2.1 (le_refl _) rfl

example := flownode_copy_often_false (fun _ => true) 10 exTwice 3 2 5 [0, 0] exTwice_ok.1 exTwice_ok.2.1 exTwice_ok.2.2.1
  exTwice_ok.2.2.2.1 rfl

example := flownode_copy_crash_false (fun s => s == 7) 0 exTwice 3 2 1 5 [0, 0] exTwice_ok.1 exTwice_ok.2.1 exTwice_ok.2.2.1
  (fun m hm => by simp at hm; subst hm; exact ⟨7, rfl, rfl⟩) (le_refl _) rfl

theorem deepcopy_true (H : Heap σ) (r : Nat) :
    deepcopy (fun _ => true) H r = (.ok (r + H.length), H ++ H.map (Cell.shift H.length)) := by
  unfold deepcopy
  rw [if_neg]
  rintro ⟨r', c, _, _, h⟩
  cases c <;> cases h

/-- The copy of `exTwice`. -/
theorem exTwice_copy : ∃ H', nodeCopy (fun _ => true) 2 exTwice 3 = (.ok 27, H') ∧ H'[27]? = some (.wrap 26 5) ∧
    H'[26]? = some (.flow (some 48)) ∧ H'[48]? = some (.list [6, 12]) ∧ H'.length = 49 := by
  have h : nodeCopy (fun _ => true) 2 exTwice 3 = (.ok 27, final ((exTwice ++ [Cell.list [0, 0], Cell.flow (some 4)]) ++
      (exTwice ++ [Cell.list [0, 0], Cell.flow (some 4)]).map (Cell.shift 6) ++ ((exTwice ++ [Cell.list [0, 0], Cell.flow (some 4)]) ++
      (exTwice ++ [Cell.list [0, 0], Cell.flow (some 4)]).map (Cell.shift 6)).map (Cell.shift 12)) 2 5 [6, 12]) := by
    simp [nodeCopy, exTwice, slice, nodes, copyAll, deepcopy_true, final, Cell.shift]
  exact ⟨_, h, by decide +kernel, by decide +kernel, by decide +kernel, by decide +kernel⟩

/-- **C231**: a node that occurs twice in the flow of a `FlowNode` occurs as two nodes in the copy: what the one learns the other does not
know. -/
theorem flownode_copy_sharing_false : ∃ n' H', nodeCopy (fun _ => true) 2 exTwice 3 = (.ok n', H') ∧
    follow exTwice 3 [0, 0, 0] = follow exTwice 3 [0, 0, 1] ∧ follow H' n' [0, 0, 0] ≠ follow H' n' [0, 0, 1] := by
  obtain ⟨H', h, h1, h2, h3, h4⟩ := exTwice_copy
  refine ⟨_, H', h, rfl, ?_⟩
  have f1 : follow H' 27 [0, 0, 0] = some 6 := by
    rw [follow, h1]
    show follow H' 26 [0, 0] = _
    rw [follow, h2]
    show follow H' 48 [0] = _
    rw [follow, h3]
    show follow H' 6 [] = _
    rw [follow, if_pos (by rw [h4]; decide)]
  have f2 : follow H' 27 [0, 0, 1] = some 12 := by
    rw [follow, h1]
    show follow H' 26 [0, 1] = _
    rw [follow, h2]
    show follow H' 48 [1] = _
    rw [follow, h3]
    show follow H' 12 [] = _
    rw [follow, if_pos (by rw [h4]; decide)]
  rw [f1, f2]
  decide

/-! ## C232: concatenation -/

/-- **C232**: `flow + flow` is a flow with the very nodes of the two flows, if the attribute `flow` of the second is a list; nothing else
changes. -/
theorem flow_add (lim : Nat) (H : Heap σ) (f g d : Nat) (l l' : List Nat) (hf : Nodes H d f l) (hd : d ≤ lim) (hg : Nodes H 1 g l') :
    ∃ h H', flowAdd lim H f g = (.ok h, H') ∧ Nodes H' 1 h (l ++ l') ∧ H.length ≤ h ∧ ∀ o, o < H.length → H'[o]? = H[o]? := by
  cases hg with
  | nested _ h => cases h
  | @plain _ b _ h1 h2 =>
    refine ⟨H.length + 1, H ++ [.list (l ++ l'), .flow (some H.length)], ?_, .plain (a := H.length) ?_ ?_, by omega,
      fun o ho => get_old ho⟩
    · simp only [flowAdd, (nodes_iff lim H f l).2 ⟨d, hd, hf⟩, h1, h2, newFlow]
    · rw [List.getElem?_append_right (by omega)]; simp
    · rw [List.getElem?_append_right (by omega)]; simp

/-- **C232**: `flow + node` is a flow with the very nodes. -/
theorem flow_add_node (lim : Nat) (H : Heap σ) (f n d : Nat) (l : List Nat) (hf : Nodes H d f l) (hd : d ≤ lim) :
    ∃ h H', flowAddNode lim H f n = (.ok h, H') ∧ Nodes H' 1 h (l ++ [n]) ∧ H.length ≤ h ∧ ∀ o, o < H.length → H'[o]? = H[o]? := by
  refine ⟨H.length + 1, H ++ [.list (l ++ [n]), .flow (some H.length)], ?_, .plain (a := H.length) ?_ ?_, by omega,
    fun o ho => get_old ho⟩
  · simp only [flowAddNode, (nodes_iff lim H f l).2 ⟨d, hd, hf⟩, newFlow]
  · rw [List.getElem?_append_right (by omega)]; simp
  · rw [List.getElem?_append_right (by omega)]; simp

/-- **C232**: `node + node` is a flow with the very nodes. -/
theorem node_add_node (H : Heap σ) (n m : Nat) :
    ∃ h H', nodeAddNode H n m = (h, H') ∧ Nodes H' 1 h [n, m] ∧ H.length ≤ h ∧ ∀ o, o < H.length → H'[o]? = H[o]? := by
  refine ⟨H.length + 1, H ++ [.list [n, m], .flow (some H.length)], rfl, .plain (a := H.length) ?_ ?_, by omega,
    fun o ho => get_old ho⟩
  · rw [List.getElem?_append_right (by omega)]; simp
  · rw [List.getElem?_append_right (by omega)]; simp

theorem nodes_shift {H : Heap σ} {d f : Nat} {l : List Nat} (h : Nodes H d f l) :
    Nodes (H ++ H.map (Cell.shift H.length)) d (f + H.length) (l.map (· + H.length)) := by
  induction h with
  | plain h1 h2 => exact .plain (by rw [get_shift, h1]; rfl) (by rw [get_shift, h2]; rfl)
  | nested h1 _ ih => exact .nested (by rw [get_shift, h1]; rfl) ih

theorem closed_reach (H : Heap σ) (r : Nat) : Closed H {o | Reach H r o} := by
  intro i hi c hc k hk
  replace hi : Reach H r i := hi
  show Reach H r k
  induction hi with
  | refl => exact .step hc hk (.refl _)
  | step h1 h2 _ ih => exact .step h1 h2 (ih hc)

/-- Flow `g` cannot be reached from its own nodes. -/
def Acyclic (H : Heap σ) (g : Nat) (l : List Nat) : Prop := ∀ m ∈ l, ∀ p, follow H m p ≠ some g

/-- **C232**: `node + flow` is different: the result is a flow of copies, of the node as well as of the nodes of the flow; nothing in
it belongs to the node or the flow. -/
theorem node_add_flow_copies (ok : σ → Bool) (lim : Nat) (H H' : Heap σ) (n g h d : Nat) (l : List Nat) (hs : Sound H)
    (hn : n < H.length) (hg : g < H.length) (hN : Nodes H d g l) (ha : Acyclic H g l)
    (hr : nodeAddFlow ok lim H n g = (.ok h, H')) :
    ∃ n' l', Nodes H' 1 h (n' :: l') ∧ Same H n H' n' ∧ List.Forall₂ (fun m m' => Same H m H' m') l l' ∧ Apart H' n h ∧
      Apart H' g h ∧ ∀ o, o < H.length → H'[o]? = H[o]? := by
  unfold nodeAddFlow at hr
  obtain ⟨⟨res, H1⟩, hx⟩ : ∃ R, flowCopy ok H g = R := ⟨_, rfl⟩
  simp only [hx] at hr
  cases res with
  | error e => cases hr
  | ok g1 =>
    obtain ⟨rfl, rfl⟩ := deepcopy_ok hx
    simp only at hr
    have hs1 := sound_copy hs
    have hN1 := nodes_shift hN
    have hsh := same_shift H
    have hold : ∀ o, o < H.length → (H ++ H.map (Cell.shift H.length))[o]? = H[o]? := fun o ho => get_old ho
    have hfs := follow_shift H
    have hlen : (H ++ H.map (Cell.shift H.length)).length = H.length + H.length := by simp
    generalize H ++ H.map (Cell.shift H.length) = H1 at *
    obtain ⟨⟨res, H2⟩, hy⟩ : ∃ R, (edit lim H1 (g + H.length) fun l => .ok (n :: l)) = R := ⟨_, rfl⟩
    simp only [hy] at hr
    cases res with
    | error e => cases hr
    | ok u =>
      cases u
      simp only at hr
      unfold edit at hy
      cases hz : nodes lim H1 (g + H.length) with
      | error e => simp only [hz] at hy; cases hy
      | ok l1 =>
        obtain ⟨d1, _, hN1'⟩ := (nodes_iff _ _ _ _).1 hz
        obtain ⟨rfl, rfl⟩ := nodes_unique hN1 hN1'
        simp only [hz] at hy
        cases hy
        obtain ⟨rfl, rfl⟩ := deepcopy_ok hr
        -- the memory after the insertion
        have hgl : g + H.length < H1.length := by omega
        obtain ⟨H2, hH2⟩ : ∃ H2, (H1 ++ [Cell.list (n :: l.map (· + H.length))]).set (g + H.length) (.flow (some H1.length)) = H2 :=
          ⟨_, rfl⟩
        rw [hH2]
        have hl2 : H2.length = H1.length + 1 := by rw [← hH2]; simp
        have hget : ∀ i, i < H1.length → i ≠ g + H.length → H2[i]? = H1[i]? := by
          intro i hi hne
          rw [← hH2, List.getElem?_set, if_neg hne.symm, get_old hi]
        have hgetg : H2[g + H.length]? = some (.flow (some H1.length)) := by
          rw [← hH2, List.getElem?_set, if_pos rfl, if_pos (by simp; omega)]
        have hgetl : H2[H1.length]? = some (.list (n :: l.map (· + H.length))) := by
          rw [← hH2, List.getElem?_set, if_neg (by omega), List.getElem?_append_right (by omega)]
          simp
        have hll : ∀ m ∈ l, m < H.length := nodes_closed (closed_all hs) hN hg
        have hs2 : Sound H2 := by
          intro i c hc k hk
          have hi := get_lt hc
          rw [hl2] at hi ⊢
          by_cases h1 : i = g + H.length
          · subst h1
            rw [hgetg] at hc
            cases hc
            simp only [Cell.kids, List.mem_cons, List.not_mem_nil, or_false] at hk
            omega
          · by_cases h2 : i = H1.length
            · subst h2
              rw [hgetl] at hc
              cases hc
              rcases List.mem_cons.1 hk with rfl | hk
              · omega
              · obtain ⟨k', hk', rfl⟩ := List.mem_map.1 hk
                have := hll k' hk'
                omega
            · rw [hget i (by omega) h1] at hc
              have := hs1 _ _ hc k hk
              omega
        -- the nodes after the insertion
        have hNh := nodes_shift (Nodes.plain hgetg hgetl)
        have hsame : ∀ r, r < H1.length → (¬ ∃ p, follow H1 r p = some (g + H.length)) → Same H1 r H2 r := by
          intro r hr hp
          refine same_of_eq (closed_reach H1 r) (fun i hi => ?_) (.refl r)
          obtain ⟨p, hip⟩ := reach_follow hs1 hr hi
          rw [hget i (follow_lt hip)]
          rintro rfl
          exact hp ⟨p, hip⟩
        have hclosed : Closed H1 {i | i < H.length} := by
          intro i hi c hc k hk
          rw [hold i hi] at hc
          exact hs _ c hc k hk
        refine ⟨_, _, hNh, ?_, ?_, ?_, ?_, ?_⟩
        · have h0 : Same H n H1 n := same_of_eq (closed_all hs) (fun i hi => (hold i hi).symm) hn
          refine (h0.trans (hsame n (by omega) ?_)).trans (same_shift H2 n)
          rintro ⟨p, hp⟩
          have : g + H.length < H.length := follow_closed hclosed hn hp
          omega
        · simp only [List.forall₂_map_right_iff]
          refine List.forall₂_same.2 fun m hm => ?_
          refine ((hsh m).trans (hsame _ (by have := hll m hm; omega) ?_)).trans (same_shift H2 _)
          rintro ⟨p, hp⟩
          rw [hfs] at hp
          obtain ⟨o, ho, hog⟩ := Option.map_eq_some_iff.1 hp
          have : o = g := by omega
          subst this
          exact ha m hm p ho
        · exact apart_of_sets (closed_new hs2) (closed_old hs2 _) (fun i hi hi' => by
            have h1 : H2.length ≤ i := hi.1
            have h2 : i < H2.length := hi'
            omega) (show n < H2.length by omega) ⟨by simp, by show g + H.length + H2.length < _; omega⟩
        · exact apart_of_sets (closed_new hs2) (closed_old hs2 _) (fun i hi hi' => by
            have h1 : H2.length ≤ i := hi.1
            have h2 : i < H2.length := hi'
            omega) (show g < H2.length by omega) ⟨by simp, by show g + H.length + H2.length < _; omega⟩
        · intro o ho
          rw [get_old (by omega), hget o (by omega) (by omega), hold o ho]

/-- Two nodes and a flow with the second one. -/
def exPair : Heap Nat := [.node 1, .node 2, .list [1], .flow (some 2)]

theorem exPair_ok : Sound exPair ∧ Nodes exPair 1 3 [1] ∧ Acyclic exPair 3 [1] := by
  refine ⟨?_, .plain (a := 2) rfl rfl, ?_⟩
  · intro o c hc k hk
    match o, hc with
    | 0, hc => cases hc; simp [Cell.kids] at hk
    | 1, hc => cases hc; simp [Cell.kids] at hk
    | 2, hc => cases hc; simp [Cell.kids] at hk; simp [hk, exPair]
    | 3, hc => cases hc; simp [Cell.kids] at hk; simp [hk, exPair]
    | o + 4, hc => simp [exPair] at hc
  · intro m hm p hp
    simp at hm
    subst hm
    cases p with
    | nil => simp [follow, exPair] at hp
    | cons i p => simp [follow, exPair, Cell.kids] at hp

/-- **C232**: so neither the node nor the nodes of the flow are in the result of `node + flow`, although they are in that of
`flow + node`. -/
theorem node_add_flow_false : (∃ h H' l', nodeAddFlow (fun _ => true) 1 exPair 0 3 = (.ok h, H') ∧ Nodes H' 1 h l' ∧ l'.length = 2 ∧
    0 ∉ l' ∧ 1 ∉ l') ∧ ∃ h H', flowAddNode 1 exPair 3 0 = (.ok h, H') ∧ Nodes H' 1 h [1, 0] := by
  constructor
  · have h : ∃ H', nodeAddFlow (fun _ => true) 1 exPair 0 3 = (.ok 16, H') ∧ H'[16]? = some (.flow (some 17)) ∧
        H'[17]? = some (.list [9, 14]) := by
      simp [nodeAddFlow, flowCopy, deepcopy_true, exPair, edit, nodes, Cell.shift]
    obtain ⟨H', h1, h2, h3⟩ := h
    exact ⟨16, H', _, h1, .plain h2 h3, rfl, by decide, by decide⟩
  · obtain ⟨h, H', h1, h2, _⟩ := flow_add_node 1 exPair 3 0 1 [1] exPair_ok.2.1 (le_refl _)
    exact ⟨h, H', h1, h2⟩

/-- **C232**: `binode + flow` uses copies of the node and of the nodes of the flow, as documented. -/
theorem binode_add_flow_copies (ok : σ → Bool) (lim : Nat) (H H' : Heap σ) (n g h : Nat) (l : List Nat) (t : Tree σ) (hs : Sound H)
    (hn : n < H.length) (hg : g < H.length) (hN : Nodes H 1 g l) (ht : Looks H n t)
    (hr : binodeAddFlow ok lim H n g = (.ok h, H')) :
    ∃ n' l', Nodes H' 1 h (n' :: l') ∧ Looks H' n' t ∧ List.Forall₂ (fun m m' => Same H m H' m') l l' ∧ Apart H' n h ∧
      Apart H' g h := by
  unfold binodeAddFlow at hr
  obtain ⟨⟨res, H1⟩, hx⟩ : ∃ R, flowCopy ok H g = R := ⟨_, rfl⟩
  simp only [hx] at hr
  cases res with
  | error e => cases hr
  | ok g1 =>
    obtain ⟨rfl, rfl⟩ := deepcopy_ok hx
    simp only at hr
    have hs1 := sound_copy hs
    have hN1 := nodes_shift hN
    have hsh := same_shift H
    have hold : ∀ o, o < H.length → (H ++ H.map (Cell.shift H.length))[o]? = H[o]? := fun o ho => get_old ho
    have hcn := closed_new hs
    have hev : Evolve H (H ++ H.map (Cell.shift H.length)) := Evolve.append _ _
    have hlen : (H ++ H.map (Cell.shift H.length)).length = H.length + H.length := by simp
    generalize H ++ H.map (Cell.shift H.length) = H1 at *
    obtain ⟨⟨res, H2⟩, hy⟩ : ∃ R, nodeCopy ok lim H1 n = R := ⟨_, rfl⟩
    simp only [hy] at hr
    cases res with
    | error e => cases hr
    | ok n' =>
      simp only at hr
      have m := nodeCopy_good ok lim H1 n n' H2 hs1 (by omega) hy
      obtain ⟨S, G, sep⟩ := m.sep
      have hclosed : Closed H1 {i | i < H.length} := by
        intro i hi c hc k hk
        rw [hold i hi] at hc
        exact hs _ c hc k hk
      obtain ⟨c1, c2⟩ := sep.old {i | i < H.length} hclosed (fun i hi => by
        have : i < H.length := hi
        omega) (by simpa using hn)
      have hle := m.evolve.le
      -- the copied flow is not touched by the copying of the node
      have hreg : ∀ i, H.length ≤ i → i < H.length + H.length → H2[i]? = H1[i]? := fun i h1 h2 =>
        c1 i (by omega) (by simp; omega)
      have hcn2 : Closed H2 {i | H.length ≤ i ∧ i < H.length + H.length} := by
        intro i hi c hc k hk
        rw [hreg i hi.1 hi.2] at hc
        exact hcn i hi c hc k hk
      cases hN1 with
      | nested _ h => cases h
      | @plain _ b _ h1 h2 =>
        have hb : H.length ≤ b ∧ b < H.length + H.length := hcn _ ⟨by simp, by show g + H.length < _; omega⟩ _ h1 b (by simp [Cell.kids])
        rw [← hreg _ (by omega) (by omega)] at h1
        rw [← hreg _ hb.1 hb.2] at h2
        simp only [h1, h2, newFlow] at hr
        cases hr
        have hlm : ∀ m ∈ l.map (· + H.length), H.length ≤ m ∧ m < H.length + H.length := fun m hm =>
          hcn2 b hb _ h2 m hm
        have hnS := sep.newS n' (sep.inS n' (by simp))
        have hg3 : (H2 ++ [Cell.list (n' :: l.map (· + H.length)), .flow (some H2.length)])[H2.length + 1]? =
            some (.flow (some H2.length)) := by rw [List.getElem?_append_right (by omega)]; simp
        have hg4 : (H2 ++ [Cell.list (n' :: l.map (· + H.length)), .flow (some H2.length)])[H2.length]? =
            some (.list (n' :: l.map (· + H.length))) := by rw [List.getElem?_append_right (by omega)]; simp
        have hS : Closed (H2 ++ [Cell.list (n' :: l.map (· + H.length)), .flow (some H2.length)])
            ({i | H.length ≤ i ∧ i < H.length + H.length} ∪ S ∪ {i | i = H2.length ∨ i = H2.length + 1}) := by
          rintro i ((hi | hi) | hi) c hc k hk
          · rw [get_old (by have := hi.2; omega)] at hc
            exact Or.inl (Or.inl (hcn2 i hi c hc k hk))
          · rw [get_old (sep.newS i hi).2] at hc
            exact Or.inl (Or.inr (sep.closed i hi c hc k hk))
          · rcases hi with rfl | rfl
            · rw [hg4] at hc
              cases hc
              rcases List.mem_cons.1 hk with rfl | hk
              · exact Or.inl (Or.inr (sep.inS _ (by simp)))
              · exact Or.inl (Or.inl (hlm k hk))
            · rw [hg3] at hc
              cases hc
              simp only [Cell.kids, List.mem_cons, List.not_mem_nil, or_false] at hk
              exact Or.inr (Or.inl hk)
        have hT : Closed (H2 ++ [Cell.list (n' :: l.map (· + H.length)), .flow (some H2.length)]) ({i | i < H.length} ∪ G) := by
          intro i hi c hc k hk
          have hil : i < H2.length := by
            rcases hi with hi | hi
            · have : i < H.length := hi; omega
            · exact (sep.newG i hi).2
          rw [get_old hil] at hc
          exact c2 i hi c hc k hk
        have hd : ∀ i, i ∈ ({i | H.length ≤ i ∧ i < H.length + H.length} ∪ S ∪ {i | i = H2.length ∨ i = H2.length + 1} : Set Nat) →
            i ∉ ({i | i < H.length} ∪ G : Set Nat) := by
          rintro i hi (h | h)
          · have h : i < H.length := h
            rcases hi with (hi | hi) | hi
            · have := hi.1; omega
            · have := (sep.newS i hi).1; omega
            · rcases hi with hi | hi <;> omega
          · have hG := sep.newG i h
            rcases hi with (hi | hi) | hi
            · have := hi.2; omega
            · exact sep.disj i hi h
            · rcases hi with hi | hi <;> omega
        refine ⟨n', l.map (· + H.length), .plain hg3 hg4, ?_, ?_, ?_, ?_⟩
        · obtain ⟨k, hk⟩ := ht
          have := m.looks k [t] (.cons (looksAt_evolve hev _ _ _ hk) .nil)
          cases this with
          | cons h _ => exact ⟨k, looksAt_evolve (Evolve.append _ _) _ _ _ h⟩
        · simp only [List.forall₂_map_right_iff]
          refine List.forall₂_same.2 fun m hm => ?_
          refine (hsh m).trans (same_of_eq hcn (fun i hi => ?_) (hlm _ (List.mem_map.2 ⟨m, hm, rfl⟩)))
          rw [get_old (by have := hi.2; omega), hreg i hi.1 hi.2]
        · exact apart_of_sets hS hT hd (Or.inl hn) (Or.inr (Or.inr rfl))
        · exact apart_of_sets hS hT hd (Or.inl hg) (Or.inr (Or.inr rfl))

/-- Non-vacuity: adding a flow to a simple node succeeds if all can be copied. -/
example : ∃ h H', binodeAddFlow (fun _ => true) 1 exPair 0 3 = (.ok h, H') := by
  simp [binodeAddFlow, nodeCopy, flowCopy, deepcopy_true, exPair, Cell.shift, newFlow]

/-! ## C233: changing a flow -/

/-- **C233**: `append`, `insert`, `extend`, `pop`, assignment and deletion give the flow the new sequence of nodes, or raise and change
nothing; they change no list of nodes and no other flow, even one that has been made from the same list. -/
theorem edit_flow (lim : Nat) (H : Heap σ) (f d : Nat) (l : List Nat) (op : List Nat → Except Err (List Nat)) (hf : Nodes H d f l)
    (hd : d ≤ lim) :
    ∃ r H', edit lim H f op = (r, H') ∧
      (match op l with
        | .ok l' => r = .ok () ∧ Nodes H' 1 f l'
        | .error e => r = .error e ∧ H' = H) ∧ ∀ o, o < H.length → o ≠ f → H'[o]? = H[o]? := by
  have hn := (nodes_iff lim H f l).2 ⟨d, hd, hf⟩
  have hfl : f < H.length := by cases hf <;> exact get_lt (by assumption)
  simp only [edit, hn]
  cases op l with
  | error e => exact ⟨_, _, rfl, ⟨rfl, rfl⟩, fun _ _ _ => rfl⟩
  | ok l' =>
    refine ⟨_, _, rfl, ⟨rfl, .plain (a := H.length) ?_ ?_⟩, fun o ho hne => ?_⟩
    · rw [List.getElem?_set, if_pos rfl, if_pos (by simp; omega)]
    · rw [List.getElem?_set, if_neg (by omega), List.getElem?_append_right (by omega)]
      simp
    · rw [List.getElem?_set, if_neg hne.symm, get_old ho]

/-- **C233**: `+=` extends the list in place, so every flow that has been made from the same list is extended too, and so is the
list of the caller. -/
theorem iadd_shared_false (lim : Nat) (H : Heap σ) (f f' g a : Nat) (l l' : List Nat) (hf : H[f]? = some (.flow (some a)))
    (hf' : H[f']? = some (.flow (some a))) (ha : H[a]? = some (.list l)) (hg : Nodes H 1 g l') :
    ∃ H', flowIadd (lim + 1) H f g = (.ok (), H') ∧ Nodes H' 1 f (l ++ l') ∧ Nodes H' 1 f' (l ++ l') ∧
      H'[a]? = some (.list (l ++ l')) := by
  cases hg with
  | nested _ h => cases h
  | @plain _ b _ h1 h2 =>
    have hal := get_lt ha
    have hset : (H.set a (.list (l ++ l')))[a]? = some (.list (l ++ l')) := by rw [List.getElem?_set, if_pos rfl, if_pos hal]
    have hne : ∀ x : Nat, H[x]? = some (.flow (some a)) → (H.set a (.list (l ++ l')))[x]? = some (.flow (some a)) := by
      intro x hx
      rw [List.getElem?_set, if_neg, hx]
      rintro rfl
      rw [ha] at hx
      cases hx
    refine ⟨H.set a (.list (l ++ l')), by simp only [flowIadd, hf, h1, ha, h2], .plain (hne f hf) hset, .plain (hne f' hf') hset,
      hset⟩

/-- **C233**: the same for `+=` with a node. -/
theorem iadd_node_shared_false (lim : Nat) (H : Heap σ) (f f' n a : Nat) (l : List Nat) (hf : H[f]? = some (.flow (some a)))
    (hf' : H[f']? = some (.flow (some a))) (ha : H[a]? = some (.list l)) :
    ∃ H', flowIaddNode lim H f n = (.ok (), H') ∧ Nodes H' 1 f (l ++ [n]) ∧ Nodes H' 1 f' (l ++ [n]) := by
  have hal := get_lt ha
  have hset : (H.set a (.list (l ++ [n])))[a]? = some (.list (l ++ [n])) := by rw [List.getElem?_set, if_pos rfl, if_pos hal]
  have hne : ∀ x : Nat, H[x]? = some (.flow (some a)) → (H.set a (.list (l ++ [n])))[x]? = some (.flow (some a)) := by
    intro x hx
    rw [List.getElem?_set, if_neg, hx]
    rintro rfl
    rw [ha] at hx
    cases hx
  exact ⟨H.set a (.list (l ++ [n])), by simp only [flowIaddNode, hf, ha], .plain (hne f hf) hset, .plain (hne f' hf') hset⟩

/-- **C233**: `+=` changes no flow with a list of its own. -/
theorem iadd_flow (lim : Nat) (H : Heap σ) (f g h a : Nat) (l l' k : List Nat) (hf : H[f]? = some (.flow (some a)))
    (ha : H[a]? = some (.list l)) (hg : Nodes H 1 g l') (hh : Nodes H 1 h k) (hne : H[h]? ≠ some (.flow (some a))) :
    ∃ H', flowIadd (lim + 1) H f g = (.ok (), H') ∧ Nodes H' 1 f (l ++ l') ∧ Nodes H' 1 h k := by
  obtain ⟨H', h1, h2, _, _⟩ := iadd_shared_false lim H f f g a l l' hf hf ha hg
  refine ⟨H', h1, h2, ?_⟩
  cases hg with
  | nested _ h => cases h
  | @plain _ b _ g1 g2 =>
    simp only [flowIadd, hf, g1, ha, g2] at h1
    cases h1
    cases hh with
    | nested _ h => cases h
    | @plain _ c _ k1 k2 =>
      refine .plain (a := c) ?_ ?_
      · rw [List.getElem?_set, if_neg, k1]
        rintro rfl
        rw [ha] at k1
        cases k1
      · rw [List.getElem?_set, if_neg, k2]
        rintro rfl
        exact hne k1

/-- Two flows made from the same list, and another one. -/
def exShared : Heap Nat := [.node 1, .list [0], .flow (some 1), .flow (some 1), .list [0], .flow (some 4)]

/-- Non-vacuity: extending the first of the two flows changes the second. -/
example : ∃ H', flowIadd 1 exShared 2 5 = (.ok (), H') ∧ Nodes H' 1 3 [0, 0] := by
  obtain ⟨H', h1, _, h2, _⟩ := iadd_shared_false 0 exShared 2 3 5 1 [0] [0] rfl rfl rfl (.plain (a := 4) rfl rfl)
  exact ⟨H', h1, h2⟩

example := iadd_flow 0 exShared 2 5 5 1 [0] [0] [0] rfl rfl (.plain (a := 4) rfl rfl) (.plain (a := 4) rfl rfl) (by decide)
example := edit_flow 1 exShared 2 1 [0] (fun l => .ok (l ++ [0])) (.plain (a := 1) rfl rfl) (le_refl _)

end Mdp.Copy
