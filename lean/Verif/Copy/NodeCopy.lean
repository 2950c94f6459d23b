import Verif.Copy.Lemmas

/-!
# What `FlowNode.copy` leaves
-/

namespace Mdp.Copy

variable {σ : Type}

/-- From `roots` in `H` copies `news` in `K` have been made: they are in a set `S` of new objects, apart from what can be reached
from the roots, to which only objects of `G` have been added. -/
structure Sep (H K : Heap σ) (roots news : List Ref) (S G : Set Ref) : Prop where
  inS : ∀ n ∈ news, n ∈ S
  newS : ∀ i ∈ S, H.length ≤ i ∧ i < K.length
  newG : ∀ i ∈ G, H.length ≤ i ∧ i < K.length
  disj : ∀ i ∈ S, i ∉ G
  closed : Closed K S
  old : ∀ T : Set Ref, Closed H T → (∀ i ∈ T, i < H.length) → (∀ r ∈ roots, r ∈ T) →
    (∀ i, i < H.length → i ∉ T → K[i]? = H[i]?) ∧ Closed K (T ∪ G)

theorem Sep.nil (H : Heap σ) : Sep H H [] [] ∅ ∅ :=
  ⟨by simp, by simp, by simp, by simp, by intro i hi; simp at hi, fun T hT _ _ => ⟨fun _ _ _ => rfl, by simpa using hT⟩⟩

theorem Sep.cons {H K L : Heap σ} {r n : Ref} {rs ns : List Ref} {S G S' G' : Set Ref} (hs : Sound H)
    (hle : H.length ≤ K.length) (hle' : K.length ≤ L.length) (hr : r < H.length) (hrs : ∀ r ∈ rs, r < H.length)
    (h : Sep H K [r] [n] S G) (h' : Sep K L rs ns S' G') : Sep H L (r :: rs) (n :: ns) (S ∪ S') (G ∪ G') := by
  -- the new objects of the first step are not touched by the second
  have hT0 := h.old {i | i < H.length} (closed_all hs) (fun _ => id) (by simpa using hr)
  have h2 := h'.old _ hT0.2 (by
    rintro i (hi | hi)
    · exact lt_of_lt_of_le hi hle
    · exact (h.newG i hi).2) (fun r hr => Or.inl (hrs r hr))
  have hS : ∀ i ∈ S, L[i]? = K[i]? := by
    intro i hi
    have := h.newS i hi
    refine h2.1 i this.2 ?_
    rintro (hi' | hi')
    · have : i < H.length := hi'; omega
    · exact h.disj i hi hi'
  refine ⟨?_, ?_, ?_, ?_, ?_, ?_⟩
  · intro m hm
    rcases List.mem_cons.1 hm with rfl | hm
    · exact Or.inl (h.inS _ (by simp))
    · exact Or.inr (h'.inS _ hm)
  · rintro i (hi | hi)
    · have := h.newS i hi; omega
    · have := h'.newS i hi; omega
  · rintro i (hi | hi)
    · have := h.newG i hi; omega
    · have := h'.newG i hi; omega
  · rintro i (hi | hi) (hg | hg)
    · exact h.disj i hi hg
    · have := h.newS i hi; have := h'.newG i hg; omega
    · have := h'.newS i hi; have := h.newG i hg; omega
    · exact h'.disj i hi hg
  · rintro i (hi | hi) c hc k hk
    · rw [hS i hi] at hc
      exact Or.inl (h.closed i hi c hc k hk)
    · exact Or.inr (h'.closed i hi c hc k hk)
  · intro T hT hTl hroots
    obtain ⟨a1, a2⟩ := h.old T hT hTl (by simpa using hroots r (by simp))
    obtain ⟨b1, b2⟩ := h'.old _ a2 (by
      rintro i (hi | hi)
      · exact lt_of_lt_of_le (hTl i hi) hle
      · exact (h.newG i hi).2) (fun r hr => Or.inl (hroots r (by simp [hr])))
    refine ⟨fun i hi hiT => ?_, by rwa [← Set.union_assoc]⟩
    rw [b1 i (by omega) ?_, a1 i hi hiT]
    rintro (hi' | hi')
    · exact hiT hi'
    · have := h.newG i hi'; omega

/-- What a copying function does. -/
structure Made (H K : Heap σ) (roots news : List Ref) : Prop where
  evolve : Evolve H K
  sound : Sound K
  sep : ∃ S G, Sep H K roots news S G
  looks : ∀ k ts, List.Forall₂ (LooksAt H k) roots ts → List.Forall₂ (LooksAt K k) news ts

/-- A copying function does what it should. -/
def Good (copy : Heap σ → Ref → Except Err Ref × Heap σ) : Prop :=
  ∀ H n n' K, Sound H → n < H.length → copy H n = (.ok n', K) → Made H K [n] [n']

theorem copyAll_made {copy : Heap σ → Ref → Except Err Ref × Heap σ} (hg : Good copy) {H K : Heap σ} {l l' : List Ref}
    (hs : Sound H) (hl : ∀ n ∈ l, n < H.length) (h : copyAll copy H l = (.ok l', K)) : Made H K l l' := by
  induction l generalizing H l' with
  | nil =>
    simp only [copyAll] at h
    cases h
    exact ⟨Evolve.refl _, hs, ⟨_, _, Sep.nil _⟩, fun k ts h => by cases h; exact .nil⟩
  | cons n l ih =>
    simp only [copyAll] at h
    obtain ⟨⟨res, H1⟩, hx⟩ : ∃ R, copy H n = R := ⟨_, rfl⟩
    simp only [hx] at h
    cases res with
    | error e => cases h
    | ok n' =>
      simp only at h
      obtain ⟨⟨res, H2⟩, hy⟩ : ∃ R, copyAll copy H1 l = R := ⟨_, rfl⟩
      simp only [hy] at h
      cases res with
      | error e => cases h
      | ok l1 =>
        cases h
        have m1 := hg H n n' H1 hs (hl n (by simp)) hx
        have m2 := ih m1.sound (fun n hn => lt_of_lt_of_le (hl n (by simp [hn])) m1.evolve.le) hy
        obtain ⟨S, G, s1⟩ := m1.sep
        obtain ⟨S', G', s2⟩ := m2.sep
        refine ⟨m1.evolve.trans m2.evolve, m2.sound, ⟨_, _, Sep.cons hs m1.evolve.le m2.evolve.le (hl n (by simp))
          (fun n hn => hl n (by simp [hn])) s1 s2⟩, ?_⟩
        intro k ts hts
        cases hts with
        | cons ha hb =>
          have h1 := m1.looks k [_] (.cons ha .nil)
          cases h1 with
          | cons h1 _ =>
            refine .cons (looksAt_evolve m2.evolve _ _ _ h1) (m2.looks k _ ?_)
            exact hb.imp fun _ _ => looksAt_evolve m1.evolve _ _ _

/-! ## Slices -/

theorem slice_ok {lim : Nat} {H H' : Heap σ} {f old : Ref} (h : slice lim H f = .ok (old, H')) :
    ∃ A d l, H' = H ++ A ∧ Nodes H d f l ∧ d ≤ lim ∧ H.length ≤ old ∧ old < H'.length ∧
      (∀ K : Heap σ, (∀ i, H.length ≤ i → i < H'.length → K[i]? = H'[i]?) → Nodes K d old l) ∧
      ∀ c ∈ A, ∀ k ∈ c.kids, k ∈ l ∨ (H.length ≤ k ∧ k < H'.length) := by
  induction lim generalizing f old H' with
  | zero => cases h
  | succ lim ih =>
    simp only [slice] at h
    split at h
    · rename_i a ha
      split at h
      · rename_i l hl
        cases h
        refine ⟨_, 1, l, rfl, .plain ha hl, by omega, by omega, by simp, ?_, ?_⟩
        · intro K hK
          have h1 := hK H.length (le_refl _) (by simp)
          have h2 := hK (H.length + 1) (by omega) (by simp)
          refine .plain (a := H.length) ?_ ?_
          · rw [h2, List.getElem?_append_right (by omega)]
            simp
          · rw [h1, List.getElem?_append_right (by omega)]
            simp
        · intro c hc k hk
          simp only [List.mem_cons, List.not_mem_nil, or_false] at hc
          rcases hc with rfl | rfl
          · exact Or.inl hk
          · simp only [Cell.kids, List.mem_cons, List.not_mem_nil, or_false] at hk
            subst hk
            exact Or.inr ⟨le_refl _, by simp⟩
      · split at h
        · cases h
        · rename_i r H1 hx
          cases h
          obtain ⟨A, d, l, rfl, hn, hd, ho1, ho2, hK, hA⟩ := ih hx
          refine ⟨A ++ [.flow (some r)], d + 1, l, by simp, .nested ha hn, by omega, by simp, by simp, ?_, ?_⟩
          · intro K hk
            refine .nested (a := r) ?_ (hK K fun i h1 h2 => ?_)
            · rw [hk _ (by simp) (by simp), List.getElem?_append_right (by omega)]
              simp
            · rw [hk i h1 (by simp at h2 ⊢; omega), get_old h2]
          · intro c hc k hk
            rcases List.mem_append.1 hc with hc | hc
            · rcases hA c hc k hk with h | h
              · exact Or.inl h
              · exact Or.inr ⟨h.1, by have := h.2; simp at this ⊢; omega⟩
            · simp only [List.mem_cons, List.not_mem_nil, or_false] at hc
              subst hc
              simp only [Cell.kids, List.mem_cons, List.not_mem_nil, or_false] at hk
              subst hk
              exact Or.inr ⟨ho1, by simp at ho2 ⊢; omega⟩
      · cases h
    · cases h

theorem nodes_closed {H : Heap σ} {T : Set Ref} (hT : Closed H T) {d : Nat} {f : Ref} {l : List Ref} (h : Nodes H d f l)
    (hf : f ∈ T) : ∀ n ∈ l, n ∈ T := by
  induction h with
  | @plain f a l h1 h2 =>
    have := hT _ hf _ h1 a (by simp [Cell.kids])
    intro n hn
    exact hT _ this _ h2 _ hn
  | @nested f a d l h1 _ ih => exact ih (hT _ hf _ h1 a (by simp [Cell.kids]))

/-! ## The copy of a node -/

theorem deepcopy_made {ok : σ → Bool} {H K : Heap σ} {n n' : Ref} (hs : Sound H) (hn : n < H.length)
    (hw : ∀ f s, H[n]? ≠ some (.wrap f s)) (h : deepcopy ok H n = (.ok n', K)) : Made H K [n] [n'] := by
  obtain ⟨rfl, rfl⟩ := deepcopy_ok h
  refine ⟨Evolve.append _ _, sound_copy hs, ⟨{i | H.length ≤ i ∧ i < H.length + H.length}, ∅, ?_⟩, ?_⟩
  · refine ⟨?_, ?_, by simp, by simp, closed_new hs, ?_⟩
    · intro m hm
      simp only [List.mem_cons, List.not_mem_nil, or_false] at hm
      subst hm
      exact ⟨by simp, by show n + H.length < _; omega⟩
    · rintro i ⟨h1, h2⟩
      exact ⟨h1, by simpa using h2⟩
    · intro T hT hTl _
      refine ⟨fun i hi _ => get_old hi, ?_⟩
      rw [Set.union_empty]
      intro i hi c hc
      rw [get_old (hTl i hi)] at hc
      exact hT i hi c hc
  · intro k ts hts
    cases hts with
    | cons ha hb =>
      cases hb
      refine .cons ?_ .nil
      cases k with
      | zero => exact ha
      | succ k =>
        rename_i t
        cases t with
        | node s =>
          have ha : H[n]? = some (.node s) := ha
          show (H ++ _)[n + H.length]? = _
          rw [get_shift, ha]
          rfl
        | flowNode s ts =>
          obtain ⟨f, _, _, h1, _⟩ := ha
          exact absurd h1 (hw f s)

theorem evolve_set {H K : Heap σ} {f old d : Nat} {l : List Ref} (hle : H.length ≤ K.length)
    (hf : ∃ a, H[f]? = some (.flow a)) (hK : ∀ i, i < H.length → i ≠ f → K[i]? = H[i]?) (hKf : K[f]? = some (.flow (some old)))
    (hnf : ∃ d, Nodes H d f l) (hno : Nodes K d old l) : Evolve H K := by
  obtain ⟨a, ha⟩ := hf
  have key : ∀ (i : Nat) (c : Cell σ), H[i]? = some c → (∀ b, c ≠ .flow b) → K[i]? = some c := by
    intro i c hc hb
    rw [hK i (get_lt hc) ?_, hc]
    rintro rfl
    rw [ha] at hc
    cases hc
    exact hb a rfl
  refine ⟨hle, fun i s h => key i _ h (fun _ h => by cases h), fun i f s h => key i _ h (fun _ h => by cases h),
    fun i l h => key i _ h (fun _ h => by cases h), ?_⟩
  intro d g l' hn
  obtain ⟨df, hnf⟩ := hnf
  induction hn with
  | @plain g b l' h1 h2 =>
    by_cases hg : g = f
    · subst hg
      obtain ⟨_, rfl⟩ := nodes_unique hnf (.plain h1 h2)
      exact ⟨_, .nested hKf hno⟩
    · exact ⟨1, .plain (by rw [hK g (get_lt h1) hg, h1]) (key _ _ h2 (fun _ h => by cases h))⟩
  | @nested g b d l' h1 h2 ih =>
    by_cases hg : g = f
    · subst hg
      obtain ⟨_, rfl⟩ := nodes_unique hnf (.nested h1 h2)
      exact ⟨_, .nested hKf hno⟩
    · obtain ⟨d', ih⟩ := ih
      exact ⟨_, .nested (by rw [hK g (get_lt h1) hg, h1]) ih⟩

/-- The result of `FlowNode.copy` in terms of the memory `H2` in which the nodes have been copied. -/
def final (H2 : Heap σ) (f old : Ref) (l' : List Ref) : Heap σ :=
  let H3 := H2.set f (.flow none)
  let H4 := H3 ++ H3.map (Cell.shift H3.length)
  ((H4 ++ [Cell.list l']).set (f + H2.length) (.flow (some H4.length))).set f (.flow (some old))

theorem final_length (H2 : Heap σ) (f old : Ref) (l' : List Ref) : (final H2 f old l').length = H2.length + H2.length + 1 := by
  simp [final]
  omega

theorem final_f {H2 : Heap σ} {f : Ref} (hf : f < H2.length) (old : Ref) (l' : List Ref) :
    (final H2 f old l')[f]? = some (.flow (some old)) := by
  unfold final
  rw [List.getElem?_set, if_pos rfl, if_pos]
  simp
  omega

theorem final_old {H2 : Heap σ} {f i : Ref} (hi : i < H2.length) (h : i ≠ f) (old : Ref) (l' : List Ref) :
    (final H2 f old l')[i]? = H2[i]? := by
  unfold final
  rw [List.getElem?_set, if_neg h.symm, List.getElem?_set, if_neg (by omega), List.append_assoc, get_old (by simpa using hi),
    List.getElem?_set, if_neg h.symm]

theorem final_new {H2 : Heap σ} {f i : Ref} (hi : i < H2.length) (h : i ≠ f) (hf : f < H2.length) (old : Ref) (l' : List Ref) :
    (final H2 f old l')[i + H2.length]? = (H2[i]?).map (Cell.shift H2.length) := by
  unfold final
  rw [List.getElem?_set, if_neg (by omega), List.getElem?_set, if_neg (by omega), get_old (by simpa using hi)]
  have : H2.length = (H2.set f (Cell.flow none)).length := by simp
  rw [this, get_shift, List.getElem?_set, if_neg h.symm]

theorem final_newf {H2 : Heap σ} {f : Ref} (hf : f < H2.length) (old : Ref) (l' : List Ref) :
    (final H2 f old l')[f + H2.length]? = some (.flow (some (H2.length + H2.length))) := by
  unfold final
  rw [List.getElem?_set, if_neg (by omega), List.getElem?_set, if_pos rfl, if_pos]
  · simp
  · simp
    omega

theorem final_last {H2 : Heap σ} {f : Ref} (hf : f < H2.length) (old : Ref) (l' : List Ref) :
    (final H2 f old l')[H2.length + H2.length]? = some (.list l') := by
  unfold final
  rw [List.getElem?_set, if_neg (by omega), List.getElem?_set, if_neg (by omega), List.getElem?_append_right (by simp)]
  simp

theorem nodeCopy_made {ok : σ → Bool} {lim : Nat} {H : Heap σ} {n f n' : Ref} {s : σ} {K : Heap σ} (hg : Good (nodeCopy ok lim))
    (hs : Sound H) (hn : H[n]? = some (.wrap f s)) (h : nodeCopy ok (lim + 1) H n = (.ok n', K)) : Made H K [n] [n'] := by
  simp only [nodeCopy, hn] at h
  cases hx : slice lim H f with
  | error e => rw [hx] at h; cases h
  | ok R =>
    obtain ⟨old, H1⟩ := R
    simp only [hx] at h
    obtain ⟨A, d, l, rfl, hN, -, ho1, ho2, hK, hA⟩ := slice_ok hx
    have hN1 : Nodes (H ++ A) d old l := hK _ fun _ _ _ => rfl
    cases hy : nodes lim (H ++ A) old with
    | error e => rw [hy] at h; cases h
    | ok l1 =>
      simp only [hy] at h
      obtain ⟨d1, -, hN1'⟩ := (nodes_iff _ _ _ _).1 hy
      obtain ⟨rfl, rfl⟩ := nodes_unique hN1 hN1'
      obtain ⟨⟨res, H2⟩, hz⟩ : ∃ R, copyAll (nodeCopy ok lim) (H ++ A) l = R := ⟨_, rfl⟩
      simp only [hz] at h
      cases res with
      | error e => cases h
      | ok l' =>
        simp only at h
        obtain ⟨⟨res, H4⟩, hw⟩ : ∃ R, deepcopy ok (H2.set f (.flow none)) n = R := ⟨_, rfl⟩
        simp only [hw] at h
        cases res with
        | error e => cases h
        | ok n1 =>
          obtain ⟨rfl, rfl⟩ := deepcopy_ok hw
          simp only [List.length_set] at h
          have hKeq : K = final H2 f old l' := by
            cases h
            simp [final]
          have hn' : n' = n + H2.length := by cases h; rfl
          clear h hw
          subst hKeq hn'
          -- positions
          have hnl := get_lt hn
          have hfl : f < H.length := hs _ _ hn f (by simp [Cell.kids])
          obtain ⟨a, hfa⟩ : ∃ a, H[f]? = some (.flow a) := by cases hN <;> exact ⟨_, by assumption⟩
          have hnf : n ≠ f := by rintro rfl; rw [hn] at hfa; cases hfa
          have hlT : ∀ T : Set Nat, Closed H T → n ∈ T → f ∈ T ∧ ∀ m ∈ l, m ∈ T := by
            intro T hT hnT
            have hfT : f ∈ T := hT _ hnT _ hn f (by simp [Cell.kids])
            exact ⟨hfT, nodes_closed hT hN hfT⟩
          have hll : ∀ m ∈ l, m < H.length := (hlT _ (closed_all hs) hnl).2
          have hs1 : Sound (H ++ A) := by
            intro i c hc k hk
            by_cases hi : i < H.length
            · rw [get_old hi] at hc
              exact lt_of_lt_of_le (hs _ _ hc k hk) (by simp)
            · rw [List.getElem?_append_right (by omega)] at hc
              rcases hA c (List.mem_of_getElem? hc) k hk with h | h
              · exact lt_of_lt_of_le (hll k h) (by simp)
              · exact h.2
          have m := copyAll_made hg hs1 (fun m hm => lt_of_lt_of_le (hll m hm) (by simp)) hz
          obtain ⟨S, G, sep⟩ := m.sep
          have hle1 : H.length + A.length ≤ H2.length := by have := m.evolve.le; simpa using this
          have ho2' : old < H.length + A.length := by simpa using ho2
          have e01 : Evolve H (H ++ A) := Evolve.append H A
          have e02 := e01.trans m.evolve
          obtain ⟨d2, hN2⟩ := e02.nodes _ _ _ hN
          obtain ⟨a2, hfa2⟩ : ∃ a, H2[f]? = some (.flow a) := by cases hN2 <;> exact ⟨_, by assumption⟩
          have hf2 : f < H2.length := get_lt hfa2
          -- the slice is not touched by the copying of the nodes
          have hold := sep.old {i | i < H.length} (closed_old hs A) (fun i hi => by
            have : i < H.length := hi
            simp; omega) hll
          have hNf : Nodes (final H2 f old l') d old l := by
            refine hK _ fun i h1 h2 => ?_
            have h2' : i < H.length + A.length := by simpa using h2
            rw [final_old (by omega) (by omega), hold.1 i h2 (by simp; omega)]
          have e25 : Evolve H2 (final H2 f old l') :=
            evolve_set (by rw [final_length]; omega) ⟨_, hfa2⟩ (fun i hi h => final_old hi h _ _) (final_f hf2 _ _) ⟨_, hN2⟩ hNf
          have hn2 : H2[n]? = some (.wrap f s) := e02.wrap _ _ _ hn
          have hn5 : (final H2 f old l')[n + H2.length]? = some (.wrap (f + H2.length) s) := by
            rw [final_new (get_lt hn2) hnf hf2, hn2]
            rfl
          refine ⟨e02.trans e25, ?_, ⟨S ∪ {i | i = n + H2.length ∨ i = f + H2.length ∨ i = H2.length + H2.length},
            {i | H.length ≤ i ∧ i < H.length + A.length} ∪ G, ?_⟩, ?_⟩
          · -- soundness
            intro i c hc k hk
            have hi := get_lt hc
            rw [final_length] at hi ⊢
            by_cases h1 : i < H2.length
            · by_cases h2 : i = f
              · subst h2
                rw [final_f hf2] at hc
                cases hc
                simp only [Cell.kids, List.mem_cons, List.not_mem_nil, or_false] at hk
                omega
              · rw [final_old h1 h2] at hc
                have := m.sound _ _ hc k hk
                omega
            · by_cases h2 : i = H2.length + H2.length
              · subst h2
                rw [final_last hf2] at hc
                cases hc
                have := (sep.newS k (sep.inS k hk)).2
                omega
              · obtain ⟨j, rfl⟩ : ∃ j, i = j + H2.length := ⟨i - H2.length, by omega⟩
                by_cases h3 : j = f
                · subst h3
                  rw [final_newf hf2] at hc
                  cases hc
                  simp only [Cell.kids, List.mem_cons, List.not_mem_nil, or_false] at hk
                  omega
                · rw [final_new (by omega) h3 hf2] at hc
                  obtain ⟨c', hc', rfl⟩ := Option.map_eq_some_iff.1 hc
                  rw [kids_shift] at hk
                  obtain ⟨k', hk', rfl⟩ := List.mem_map.1 hk
                  have := m.sound _ _ hc' k' hk'
                  omega
          · -- separation
            refine ⟨?_, ?_, ?_, ?_, ?_, ?_⟩
            · intro m hm
              simp only [List.mem_cons, List.not_mem_nil, or_false] at hm
              exact Or.inr (Or.inl hm)
            · rw [final_length]
              rintro i (hi | hi)
              · have h1 := (sep.newS i hi).1
                have h2 := (sep.newS i hi).2
                rw [List.length_append] at h1
                omega
              · rcases hi with rfl | rfl | rfl <;> omega
            · rw [final_length]
              rintro i (⟨h1, h2⟩ | hi)
              · omega
              · have h1 := (sep.newG i hi).1
                have h2 := (sep.newG i hi).2
                rw [List.length_append] at h1
                omega
            · rintro i (hi | hi) (⟨h1, h2⟩ | hg)
              · have h1 := (sep.newS i hi).1
                rw [List.length_append] at h1
                omega
              · exact sep.disj i hi hg
              · rcases hi with rfl | rfl | rfl <;> omega
              · have h2 := (sep.newG i hg).2
                rcases hi with rfl | rfl | rfl <;> omega
            · rintro i (hi | hi) c hc k hk
              · have h1 := (sep.newS i hi).1
                have h2 := (sep.newS i hi).2
                rw [List.length_append] at h1
                rw [final_old h2 (by omega)] at hc
                exact Or.inl (sep.closed i hi c hc k hk)
              · rcases hi with rfl | rfl | rfl
                · rw [hn5] at hc
                  cases hc
                  simp only [Cell.kids, List.mem_cons, List.not_mem_nil, or_false] at hk
                  exact Or.inr (Or.inr (Or.inl hk))
                · rw [final_newf hf2] at hc
                  cases hc
                  simp only [Cell.kids, List.mem_cons, List.not_mem_nil, or_false] at hk
                  exact Or.inr (Or.inr (Or.inr hk))
                · rw [final_last hf2] at hc
                  cases hc
                  exact Or.inl (sep.inS k hk)
            · intro T hT hTl hr
              have hnT : n ∈ T := hr n (by simp)
              obtain ⟨hfT, hlT⟩ := hlT T hT hnT
              have hT1 : Closed (H ++ A) (T ∪ {i | H.length ≤ i ∧ i < H.length + A.length}) := by
                rintro i (hi | hi) c hc k hk
                · rw [get_old (hTl i hi)] at hc
                  exact Or.inl (hT i hi c hc k hk)
                · obtain ⟨h1, h2⟩ := hi
                  rw [List.getElem?_append_right h1] at hc
                  rcases hA c (List.mem_of_getElem? hc) k hk with h | h
                  · exact Or.inl (hlT k h)
                  · exact Or.inr ⟨h.1, by have := h.2; simpa using this⟩
              obtain ⟨c1, c2⟩ := sep.old _ hT1 (by
                rintro i (hi | ⟨_, hi⟩)
                · have := hTl i hi; simp; omega
                · simpa using hi) (fun r hr => Or.inl (hlT r hr))
              constructor
              · intro i hi hiT
                have hif : i ≠ f := by rintro rfl; exact hiT hfT
                rw [final_old (by omega) hif, c1 i (by simp; omega), get_old hi]
                rintro (h | ⟨h, _⟩)
                · exact hiT h
                · omega
              · rw [← Set.union_assoc]
                intro i hi c hc k hk
                have hil : i < H2.length := by
                  rcases hi with (hi | ⟨_, hi⟩) | hi
                  · have := hTl i hi; omega
                  · omega
                  · exact (sep.newG i hi).2
                by_cases hif : i = f
                · subst hif
                  rw [final_f hf2] at hc
                  cases hc
                  simp only [Cell.kids, List.mem_cons, List.not_mem_nil, or_false] at hk
                  subst hk
                  exact Or.inl (Or.inr ⟨ho1, ho2'⟩)
                · rw [final_old hil hif] at hc
                  exact c2 i hi c hc k hk
          · -- the copy looks the same
            intro k ts hts
            cases hts with
            | cons ha hb =>
              cases hb
              refine .cons ?_ .nil
              cases k with
              | zero => exact ha
              | succ k =>
                rename_i t
                cases t with
                | node s' =>
                  have ha : H[n]? = some (.node s') := ha
                  rw [hn] at ha
                  cases ha
                | flowNode s' ts =>
                  obtain ⟨f', d', l2, h1, h2, h3⟩ := ha
                  rw [hn] at h1
                  cases h1
                  obtain ⟨_, rfl⟩ := nodes_unique hN h2
                  refine ⟨_, 1, l', hn5, .plain (final_newf hf2 _ _) (final_last hf2 _ _), ?_⟩
                  have h4 := m.looks k ts (h3.imp fun _ _ => looksAt_evolve e01 _ _ _)
                  exact h4.imp fun _ _ => looksAt_evolve e25 _ _ _

theorem nodeCopy_good (ok : σ → Bool) (lim : Nat) : Good (nodeCopy ok lim) := by
  induction lim with
  | zero => intro H n n' K _ _ h; simp only [nodeCopy] at h; cases h
  | succ lim ih =>
    intro H n n' K hs hn h
    by_cases hw : ∃ f s, H[n]? = some (.wrap f s)
    · obtain ⟨f, s, hw⟩ := hw
      exact nodeCopy_made ih hs hw h
    · refine deepcopy_made (ok := ok) hs hn (fun f s hf => hw ⟨f, s, hf⟩) ?_
      rw [← h]
      simp only [nodeCopy]
      split
      · rename_i f s hf
        exact absurd ⟨f, s, hf⟩ hw
      · rfl

end Mdp.Copy
