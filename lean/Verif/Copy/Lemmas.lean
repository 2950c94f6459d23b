import Verif.Copy.Spec
import Mathlib.Data.Set.Basic
import Mathlib.Data.List.Forall2
import Mathlib.Tactic.Basic

/-!
# Lemmas for C230-C233
-/

namespace Mdp.Copy

variable {σ : Type}

theorem get_lt {H : Heap σ} {i : Nat} {c : Cell σ} (h : H[i]? = some c) : i < H.length := (List.getElem?_eq_some_iff.1 h).1

/-! ## Paths -/

theorem follow_append (H : Heap σ) (r : Ref) (p q : List Nat) :
    follow H r (p ++ q) = (follow H r p).bind fun o => follow H o q := by
  induction p generalizing r with
  | nil =>
    simp only [List.nil_append, follow]
    split
    · rfl
    · rename_i h
      have : H[r]? = none := List.getElem?_eq_none (by omega)
      cases q with
      | nil => simp [follow, h]
      | cons i q => simp [follow, this]
  | cons i p ih =>
    simp only [List.cons_append, follow]
    split
    · rfl
    · split
      · rfl
      · exact ih _

theorem follow_reach {H : Heap σ} {r o : Ref} {p : List Nat} (h : follow H r p = some o) : Reach H r o := by
  induction p generalizing r with
  | nil =>
    simp only [follow] at h
    split at h
    · cases h; exact .refl _
    · cases h
  | cons i p ih =>
    simp only [follow] at h
    split at h
    · cases h
    · rename_i c hc
      split at h
      · cases h
      · rename_i k hk
        exact .step hc (List.mem_of_getElem? hk) (ih h)

theorem reach_follow {H : Heap σ} (hH : Sound H) {r o : Ref} (hr : r < H.length) (h : Reach H r o) : ∃ p, follow H r p = some o := by
  induction h with
  | refl r => exact ⟨[], by simp [follow, hr]⟩
  | @step r k r' c hc hk _ ih =>
    obtain ⟨p, hp⟩ := ih (hH _ _ hc _ hk)
    obtain ⟨i, hi⟩ := List.mem_iff_getElem?.1 hk
    exact ⟨i :: p, by simp [follow, hc, hi, hp]⟩

/-- All references from objects of the set lead to objects of the set. -/
def Closed (H : Heap σ) (S : Set Ref) : Prop := ∀ i ∈ S, ∀ c, H[i]? = some c → ∀ k ∈ c.kids, k ∈ S

theorem follow_closed {H : Heap σ} {S : Set Ref} (hS : Closed H S) {r o : Ref} {p : List Nat} (hr : r ∈ S)
    (h : follow H r p = some o) : o ∈ S := by
  have := follow_reach h
  clear h
  induction this with
  | refl => exact hr
  | step hc hk _ ih => exact ih (hS _ hr _ hc _ hk)

theorem follow_lt {H : Heap σ} {r o : Ref} {p : List Nat} (h : follow H r p = some o) : o < H.length := by
  induction p generalizing r with
  | nil =>
    simp only [follow] at h
    split at h
    · cases h; assumption
    · cases h
  | cons i p ih =>
    simp only [follow] at h
    split at h
    · cases h
    · split at h
      · cases h
      · exact ih h

/-- Paths in a closed set lead to the same objects in every heap that has the same objects there. -/
theorem follow_eq {H K : Heap σ} {S : Set Ref} (hS : Closed H S) (he : ∀ i ∈ S, H[i]? = K[i]?) {r : Ref} (hr : r ∈ S) (p : List Nat) :
    follow H r p = follow K r p := by
  induction p generalizing r with
  | nil =>
    have := he r hr
    have hlt : r < H.length ↔ r < K.length := by
      rw [← not_iff_not, not_lt, not_lt, ← List.getElem?_eq_none_iff, ← List.getElem?_eq_none_iff, this]
    simp only [follow, hlt]
  | cons i p ih =>
    simp only [follow, ← he r hr]
    split
    · rfl
    · rename_i c hc
      split
      · rfl
      · rename_i k hk
        exact ih (hS _ hr _ hc _ (List.mem_of_getElem? hk))

theorem same_of_eq {H K : Heap σ} {S : Set Ref} (hS : Closed H S) (he : ∀ i ∈ S, H[i]? = K[i]?) {r : Ref} (hr : r ∈ S) :
    Same H r K r := by
  have hf := follow_eq hS he hr
  refine ⟨fun p => ?_, fun p q => by rw [hf, hf]⟩
  simp only [look, ← hf]
  cases h : follow H r p with
  | none => rfl
  | some o => simp only [Option.bind_some, he o (follow_closed hS hr h)]

theorem apart_of_sets {H : Heap σ} {S T : Set Ref} (hS : Closed H S) (hT : Closed H T) (hd : ∀ i, i ∈ S → i ∉ T) {r r' : Ref}
    (hr : r ∈ T) (hr' : r' ∈ S) : Apart H r r' :=
  fun _ _ _ hp hq => hd _ (follow_closed hS hr' hq) (follow_closed hT hr hp)

/-! ## Copying -/

theorem kids_shift (n : Nat) (c : Cell σ) : (c.shift n).kids = c.kids.map (· + n) := by
  rcases c with _ | _ | _ | _ <;> try rfl
  rename_i a
  cases a <;> rfl

theorem label_shift (n : Nat) (c : Cell σ) : (c.shift n).label = c.label := by cases c <;> rfl

theorem get_shift (H : Heap σ) (i : Nat) :
    (H ++ H.map (Cell.shift H.length))[i + H.length]? = (H[i]?).map (Cell.shift H.length) := by
  rw [List.getElem?_append_right (by omega), List.getElem?_map, Nat.add_sub_cancel]

theorem get_old {H K : Heap σ} {i : Nat} (h : i < H.length) : (H ++ K)[i]? = H[i]? := List.getElem?_append_left h

theorem follow_shift (H : Heap σ) (r : Ref) (p : List Nat) :
    follow (H ++ H.map (Cell.shift H.length)) (r + H.length) p = (follow H r p).map (· + H.length) := by
  induction p generalizing r with
  | nil =>
    simp only [follow, List.length_append, List.length_map, Nat.add_lt_add_iff_right]
    split <;> rfl
  | cons i p ih =>
    simp only [follow, get_shift]
    cases hc : H[r]? with
    | none => rfl
    | some c =>
      simp only [Option.map_some, kids_shift, List.getElem?_map]
      cases hk : c.kids[i]? with
      | none => rfl
      | some k => exact ih k

theorem closed_all {H : Heap σ} (hH : Sound H) : Closed H {i | i < H.length} := fun _ _ c hc k hk => hH _ c hc k hk

theorem closed_old {H : Heap σ} (hH : Sound H) (K : Heap σ) : Closed (H ++ K) {i | i < H.length} := by
  intro i hi c hc k hk
  rw [get_old hi] at hc
  exact hH _ c hc k hk

theorem closed_new {H : Heap σ} (hH : Sound H) :
    Closed (H ++ H.map (Cell.shift H.length)) {i | H.length ≤ i ∧ i < H.length + H.length} := by
  rintro i ⟨h1, h2⟩ c hc k hk
  obtain ⟨j, rfl⟩ : ∃ j, i = j + H.length := ⟨i - H.length, by omega⟩
  rw [get_shift] at hc
  obtain ⟨c', hc', rfl⟩ := Option.map_eq_some_iff.1 hc
  rw [kids_shift] at hk
  obtain ⟨k', hk', rfl⟩ := List.mem_map.1 hk
  have := hH _ _ hc' _ hk'
  exact ⟨by simp, by show k' + H.length < _; omega⟩

theorem sound_copy {H : Heap σ} (hH : Sound H) : Sound (H ++ H.map (Cell.shift H.length)) := by
  intro i c hc k hk
  have hi := get_lt hc
  simp only [List.length_append, List.length_map] at hi ⊢
  by_cases h : i < H.length
  · exact lt_of_lt_of_le (closed_old hH _ i h c hc k hk) (by omega)
  · exact (closed_new hH i ⟨by omega, hi⟩ c hc k hk).2

theorem deepcopy_ok {ok : σ → Bool} {H H' : Heap σ} {r r' : Ref} (h : deepcopy ok H r = (.ok r', H')) :
    r' = r + H.length ∧ H' = H ++ H.map (Cell.shift H.length) := by
  unfold deepcopy at h
  split at h
  · cases h
  · cases h; exact ⟨rfl, rfl⟩

theorem deepcopy_error {ok : σ → Bool} {H H' : Heap σ} {r : Ref} {e : Err} (h : deepcopy ok H r = (.error e, H')) : H' = H := by
  unfold deepcopy at h
  split at h
  · cases h; rfl
  · cases h

/-! ## What stays as it is -/

/-- Nodes, flow nodes and lists stay as they are and flows keep their nodes. -/
structure Evolve (H K : Heap σ) : Prop where
  le : H.length ≤ K.length
  node : ∀ (i : Nat) (s : σ), H[i]? = some (.node s) → K[i]? = some (.node s)
  wrap : ∀ (i f : Nat) (s : σ), H[i]? = some (.wrap f s) → K[i]? = some (.wrap f s)
  list : ∀ (i : Nat) (l : List Nat), H[i]? = some (.list l) → K[i]? = some (.list l)
  nodes : ∀ d f l, Nodes H d f l → ∃ d', Nodes K d' f l

theorem Evolve.refl (H : Heap σ) : Evolve H H := ⟨le_refl _, fun _ _ => id, fun _ _ _ => id, fun _ _ => id, fun d _ _ h => ⟨d, h⟩⟩

theorem Evolve.trans {H K L : Heap σ} (h : Evolve H K) (h' : Evolve K L) : Evolve H L :=
  ⟨h.le.trans h'.le, fun i s hi => h'.node i s (h.node i s hi), fun i f s hi => h'.wrap i f s (h.wrap i f s hi),
    fun i l hi => h'.list i l (h.list i l hi), fun d f l hn => by
      obtain ⟨d', hd'⟩ := h.nodes d f l hn
      exact h'.nodes d' f l hd'⟩

theorem nodes_append {H : Heap σ} (K : Heap σ) {d : Nat} {f : Ref} {l : List Ref} (h : Nodes H d f l) : Nodes (H ++ K) d f l := by
  induction h with
  | plain h1 h2 => exact .plain (by rw [get_old (get_lt h1), h1]) (by rw [get_old (get_lt h2), h2])
  | nested h1 _ ih => exact .nested (by rw [get_old (get_lt h1), h1]) ih

theorem Evolve.append (H K : Heap σ) : Evolve H (H ++ K) :=
  ⟨by simp, fun i s h => by rw [get_old (get_lt h), h], fun i f s h => by rw [get_old (get_lt h), h],
    fun i l h => by rw [get_old (get_lt h), h], fun d _ _ h => ⟨d, nodes_append K h⟩⟩

theorem nodes_unique {H : Heap σ} {d d' : Nat} {f : Ref} {l l' : List Ref} (h : Nodes H d f l) (h' : Nodes H d' f l') : 
    d = d' ∧ l = l' := by
  induction h generalizing d' with
  | plain h1 h2 =>
    cases h' with
    | plain h1' h2' =>
      rw [h1] at h1'; cases h1'
      rw [h2] at h2'; cases h2'
      exact ⟨rfl, rfl⟩
    | nested h1' h2' =>
      rw [h1] at h1'; cases h1'
      cases h2' with
      | plain h3 _ => rw [h2] at h3; cases h3
      | nested h3 _ => rw [h2] at h3; cases h3
  | nested h1 h2 ih =>
    cases h' with
    | plain h1' h2' =>
      rw [h1] at h1'; cases h1'
      cases h2 with
      | plain h3 _ => rw [h2'] at h3; cases h3
      | nested h3 _ => rw [h2'] at h3; cases h3
    | nested h1' h2' =>
      rw [h1] at h1'; cases h1'
      obtain ⟨rfl, rfl⟩ := ih h2'
      exact ⟨rfl, rfl⟩

theorem looksAt_evolve {H K : Heap σ} (h : Evolve H K) (k : Nat) (r : Ref) (t : Tree σ) (hl : LooksAt H k r t) : LooksAt K k r t := by
  induction k generalizing r t with
  | zero => exact hl
  | succ k ih =>
    cases t with
    | node s => exact h.node _ _ hl
    | flowNode s ts =>
      obtain ⟨f, d, l, h1, h2, h3⟩ := hl
      obtain ⟨d', h2'⟩ := h.nodes _ _ _ h2
      exact ⟨f, d', l, h.wrap _ _ _ h1, h2', h3.imp fun _ _ => ih _ _⟩

theorem nodes_iff (lim : Nat) (H : Heap σ) (f : Ref) (l : List Ref) : nodes lim H f = .ok l ↔ ∃ d, d ≤ lim ∧ Nodes H d f l := by
  induction lim generalizing f with
  | zero =>
    constructor
    · intro h; cases h
    · rintro ⟨d, hd, h⟩
      cases h <;> omega
  | succ lim ih =>
    constructor
    · intro h
      simp only [nodes] at h
      split at h
      · rename_i a ha
        split at h
        · rename_i l' hl
          cases h
          exact ⟨1, by omega, .plain ha hl⟩
        · obtain ⟨d, hd, hn⟩ := (ih a).1 h
          exact ⟨d + 1, by omega, .nested ha hn⟩
        · cases h
      · cases h
    · rintro ⟨d, hd, h⟩
      cases h with
      | plain h1 h2 => simp [nodes, h1, h2]
      | @nested _ a d _ h1 h2 =>
        have : ∃ b, H[a]? = some (.flow b) := by cases h2 <;> exact ⟨_, by assumption⟩
        obtain ⟨b, hb⟩ := this
        simp only [nodes, h1, hb]
        exact (ih a).2 ⟨d, by omega, h2⟩

end Mdp.Copy
