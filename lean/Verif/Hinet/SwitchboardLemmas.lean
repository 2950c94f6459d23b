import Verif.Hinet.Switchboard
import Mathlib.Tactic.Ring
import Mathlib.Tactic.FieldSimp
import Mathlib.Tactic.Linarith
import Mathlib.Algebra.CharZero.Defs

/-! Lemmas for `Verif.Hinet.SwitchboardProps`. -/

namespace Mdp.Switchboard

open Py

variable {α : Type}

theorem normIdx_nonneg {n : Nat} {i : Int} (h0 : 0 ≤ i) (h : i < n) : normIdx n i = some i.toNat := by
  unfold normIdx
  have : ¬ i < 0 := by omega
  simp only [this, if_false]
  rw [if_pos ⟨h0, h⟩]

theorem normIdx_some {n : Nat} {i : Int} {k : Nat} (h : normIdx n i = some k) :
    (-(n : Int) ≤ i ∧ i < n ∧ k < n) ∧ k = (if i < 0 then i + n else i).toNat := by
  unfold normIdx at h
  generalize hj : (if i < 0 then i + (n : Int) else i) = j at h ⊢
  simp only at h
  split at h
  · cases h
    refine ⟨?_, rfl⟩
    split at hj <;> omega
  · cases h

/-- Fancy indexing succeeds exactly when all indices are valid, and picks the indexed entries. -/
theorem fancy_ok {row : List α} {c : List Int} {y : List α} (h : fancy row c = .ok y) :
    y.length = c.length ∧ (∀ i ∈ c, -(row.length : Int) ≤ i ∧ i < row.length) ∧
    ∀ (k : Nat) (i : Int), c[k]? = some i → y[k]? = row[(if i < 0 then i + row.length else i).toNat]? := by
  induction c generalizing y with
  | nil => simp [fancy] at h; subst h; simp
  | cons i r ih =>
    unfold fancy at h
    split at h
    · cases h
    rename_i k hk
    split at h
    · cases h
    rename_i a ha
    split at h
    · cases h
    rename_i l hl
    cases h
    obtain ⟨h1, h2, h3⟩ := ih hl
    obtain ⟨hb, rfl⟩ := normIdx_some hk
    refine ⟨by simp [h1], ?_, ?_⟩
    · intro j hj
      rcases List.mem_cons.1 hj with rfl | hj
      · exact ⟨hb.1, hb.2.1⟩
      · exact h2 j hj
    · intro k j hk
      cases k with
      | zero =>
        simp only [List.getElem?_cons_zero, Option.some.injEq] at hk ⊢
        subst hk
        exact ha.symm
      | succ k => simpa using h3 k j (by simpa using hk)

theorem fancy_succeeds {row : List α} {c : List Int}
    (h : ∀ i ∈ c, -(row.length : Int) ≤ i ∧ i < row.length) : ∃ y, fancy row c = .ok y := by
  induction c with
  | nil => exact ⟨[], rfl⟩
  | cons i r ih =>
    obtain ⟨l, hl⟩ := ih fun j hj => h j (List.mem_cons_of_mem _ hj)
    have hi := h i List.mem_cons_self
    unfold fancy
    have hk : ∃ k, k < row.length ∧ normIdx row.length i = some k := by
      unfold normIdx
      simp only
      rw [if_pos (by split <;> omega)]
      exact ⟨_, by split <;> omega, rfl⟩
    obtain ⟨k, hk1, hk2⟩ := hk
    simp only [hk2, List.getElem?_eq_getElem hk1, hl]
    exact ⟨_, rfl⟩

theorem fancy_fails {row : List α} {c : List Int}
    (h : ¬ ∀ i ∈ c, -(row.length : Int) ≤ i ∧ i < row.length) : fancy row c = .error .index := by
  induction c with
  | nil => simp at h
  | cons i r ih =>
    unfold fancy
    split
    · rfl
    rename_i k hk
    have hi := (normIdx_some hk).1
    rw [List.getElem?_eq_getElem hi.2.2]
    simp only
    rw [ih]
    intro hr
    apply h
    intro j hj
    rcases List.mem_cons.1 hj with rfl | hj
    · exact ⟨hi.1, hi.2.1⟩
    · exact hr j hj

/-! ### argsort -/

/-- A list of positions that puts `c` into ascending order. -/
def IsArgsort (c : List Int) (p : List Nat) : Prop :=
  p.Perm (List.range c.length) ∧ p.Pairwise fun i j => c.getD i 0 ≤ c.getD j 0

theorem isArgsort_argsort (c : List Int) : IsArgsort c (argsort c) := by
  refine ⟨List.mergeSort_perm _ _, ?_⟩
  have := List.pairwise_mergeSort (le := fun i j => decide (c.getD i 0 ≤ c.getD j 0))
    (by intro a b d; simp only [decide_eq_true_eq]; omega)
    (by intro a b; simp only [Bool.or_eq_true, decide_eq_true_eq]; omega) (List.range c.length)
  exact this.imp fun h => by simpa using h

theorem map_getD_range {β : Type} (c : List β) (d : β) :
    (List.range c.length).map (fun i => c.getD i d) = c := by
  apply List.ext_getElem
  · simp
  · intro i h1 h2
    simp only [List.getElem_map, List.getElem_range]
    simp only [List.length_map, List.length_range] at h1
    simp [List.getD, List.getElem?_eq_getElem h1]

/-- The connections are a rearrangement of `0 … n-1`. -/
def IsPerm (n : Nat) (c : List Int) : Prop := c.Perm ((List.range n).map fun (k : Nat) => (k : Int))

theorem isPerm_of {n : Nat} {c : List Int} (h0 : ∀ i ∈ c, 0 ≤ i) (h : ∀ i ∈ c, i < n)
    (hl : n = c.length) (hd : c.dedup.length = n) : IsPerm n c := by
  have hnd : c.Nodup := by
    rw [← List.dedup_eq_self]
    exact (List.dedup_sublist c).eq_of_length (by omega)
  refine (List.subperm_of_subset hnd ?_).perm_of_length_le (by simp [hl])
  intro i hi
  have h1 := h0 i hi
  have h2 := h i hi
  simp only [List.mem_map, List.mem_range]
  exact ⟨i.toNat, by omega, by omega⟩

theorem of_isPerm {n : Nat} {c : List Int} (h : IsPerm n c) :
    (∀ i ∈ c, 0 ≤ i ∧ i < n) ∧ n = c.length ∧ c.Nodup := by
  refine ⟨?_, ?_, ?_⟩
  · intro i hi
    have := h.subset hi
    simp only [List.mem_map, List.mem_range] at this
    obtain ⟨k, hk, rfl⟩ := this
    omega
  · simpa using h.length_eq.symm
  · exact h.nodup_iff.2 (List.Nodup.map (fun a b hab => by simpa using hab) List.nodup_range)

theorem argsort_perm {n : Nat} {c : List Int} {p : List Nat} (h : IsPerm n c) (hp : IsArgsort c p) :
    p.length = n ∧ (∀ (k i : Nat), p[k]? = some i → c[i]? = some (k : Int)) := by
  obtain ⟨-, hn, -⟩ := of_isPerm h
  have e : p.map (fun i => c.getD i 0) = (List.range n).map fun (k : Nat) => (k : Int) := by
    refine List.Perm.eq_of_pairwise (le := fun a b => a ≤ b) ?_ ?_ ?_ ?_
    · intro a b _ _ h1 h2; omega
    · rw [List.pairwise_map]; exact hp.2
    · rw [List.pairwise_map]
      exact List.pairwise_lt_range.imp fun h => by omega
    · have := hp.1.map (fun i => c.getD i 0)
      rw [map_getD_range] at this
      exact this.trans h
  refine ⟨by simpa using congrArg List.length e, ?_⟩
  intro k i hk
  have hk' : k < n := by
    have := congrArg List.length e
    simp at this
    have := (List.getElem?_eq_some_iff.1 hk).1
    omega
  have hi : i < c.length := by
    have := hp.1.subset (List.mem_of_getElem? hk)
    simpa using this
  have := congrArg (fun l => l[k]?) e
  simp only [List.getElem?_map, hk, Option.map_some, List.getElem?_range hk', Option.some.injEq] at this
  rw [List.getElem?_eq_getElem hi]
  simp only [List.getD, List.getElem?_eq_getElem hi, Option.getD_some] at this
  rw [this]

/-! ### the mean loop -/

section mean
variable {β : Type}

theorem sorted_split (key : β → Nat) (k : Nat) (l : List β) (hs : l.Pairwise fun a b => key a ≤ key b)
    (hk : ∀ a ∈ l, k ≤ key a) :
    l = l.filter (fun a => key a = k) ++ l.filter (fun a => k + 1 ≤ key a) := by
  induction l with
  | nil => rfl
  | cons a r ih =>
    rw [List.pairwise_cons] at hs
    by_cases ha : key a = k
    · have hn : ¬ (k + 1 ≤ key a) := by omega
      rw [List.filter_cons_of_pos (by simpa using ha), List.filter_cons_of_neg (by simpa using hn)]
      rw [List.cons_append, ← ih hs.2 fun b hb => hk b (List.mem_cons_of_mem _ hb)]
    · have hge : k + 1 ≤ key a := by have := hk a List.mem_cons_self; omega
      have e : (a :: r).filter (fun a => key a = k) = [] := by
        rw [List.filter_eq_nil_iff]
        intro b hb
        rcases List.mem_cons.1 hb with rfl | hb
        · simpa using ha
        · have := hs.1 b hb; simp; omega
      rw [e, List.nil_append]
      symm
      rw [List.filter_eq_self]
      intro b hb
      rcases List.mem_cons.1 hb with rfl | hb
      · simpa using hge
      · have := hs.1 b hb; simp; omega

end mean

/-- The mean of the entries of `row` at the positions connected to `j`. -/
def meanAt [Field α] (c : List Int) (row : List α) (j : Nat) : α :=
  (((List.range c.length).filter fun i => c.getD i 0 = (j : Int)).map fun i => row.getD i 0).sum /
    (c.count (j : Int) : α)

theorem count_eq_filter (c : List Int) (p : List Nat) (hp : p.Perm (List.range c.length)) (j : Int) :
    (p.filter fun i => c.getD i 0 = j).length = c.count j := by
  rw [(hp.filter _).length_eq]
  conv_rhs => rw [← map_getD_range c 0]
  rw [List.count, List.countP_map, List.countP_eq_length_filter]
  congr 1

theorem filter_filter_ge (p : List Nat) (key : Nat → Nat) (k : Nat) :
    (p.filter fun i => k ≤ key i).filter (fun i => k + 1 ≤ key i) = p.filter fun i => k + 1 ≤ key i := by
  rw [List.filter_filter]
  apply List.filter_congr
  intro x _
  simp
  omega

theorem filter_filter_eq (p : List Nat) (key : Nat → Nat) (k : Nat) :
    (p.filter fun i => k ≤ key i).filter (fun i => key i = k) = p.filter fun i => key i = k := by
  rw [List.filter_filter]
  apply List.filter_congr
  intro x _
  simp
  omega

theorem meanLoop_spec [Field α] {c : List Int} {p : List Nat} {row : List α} (hp : IsArgsort c p)
    (h0 : ∀ i ∈ c, 0 ≤ i) (N : Nat) (hN : ∀ i ∈ c, i < N) (ns : List Nat) (iy ix : Nat) (y : List α)
    (hns : ns = (List.range' iy (N - iy)).map fun (j : Nat) => c.count (j : Int))
    (hix : ix < c.length) (hdrop : p.drop ix = p.filter fun i => iy ≤ (c.getD i 0).toNat)
    (hy : N ≤ y.length) :
    ∃ y', meanLoop row p c.length ns iy ix y = .ok y' ∧ y'.length = y.length ∧
      (∀ j, j < iy → y'[j]? = y[j]?) ∧
      (∀ j, iy ≤ j → (j : Int) ∈ c → y'[j]? = some (meanAt c row j)) ∧
      (∀ j, iy ≤ j → (j : Int) ∉ c → y'[j]? = y[j]?) := by
  have plen : p.length = c.length := by simpa using hp.1.length_eq
  have cmem : ∀ i ∈ p, c.getD i 0 ∈ c := by
    intro i hi
    have : i < c.length := by simpa using hp.1.subset hi
    simp [List.getD, List.getElem?_eq_getElem this]
  have hlt : iy < N := by
    have hne : p.drop ix ≠ [] := by
      intro h; have := congrArg List.length h; simp at this; omega
    obtain ⟨i, r, hi⟩ := List.exists_cons_of_ne_nil hne
    have him : i ∈ p.filter fun i => iy ≤ (c.getD i 0).toNat := by rw [← hdrop, hi]; simp
    simp only [List.mem_filter, decide_eq_true_eq] at him
    have := hN _ (cmem i him.1)
    have := h0 _ (cmem i him.1)
    omega
  have key0 : ∀ i ∈ p, ((c.getD i 0).toNat = iy ↔ c.getD i 0 = (iy : Int)) := by
    intro i hi
    have := h0 _ (cmem i hi)
    omega
  have eqf : (p.filter fun i => (c.getD i 0).toNat = iy) = p.filter fun i => c.getD i 0 = (iy : Int) := by
    apply List.filter_congr
    intro i hi
    simp only [decide_eq_decide]
    exact key0 i hi
  have sp : p.drop ix = (p.filter fun i => c.getD i 0 = (iy : Int)) ++
      p.filter fun i => iy + 1 ≤ (c.getD i 0).toNat := by
    rw [← eqf]
    conv_lhs => rw [hdrop]
    have hs : (p.filter fun i => iy ≤ (c.getD i 0).toNat).Pairwise
        fun a b => (c.getD a 0).toNat ≤ (c.getD b 0).toNat :=
      (hp.2.filter _).imp fun h => by omega
    have := sorted_split (fun i => (c.getD i 0).toNat) iy _ hs (by intro a ha; simp at ha ⊢; exact ha.2)
    rw [filter_filter_ge p (fun i => (c.getD i 0).toNat), filter_filter_eq p (fun i => (c.getD i 0).toNat)] at this
    exact this
  have hcnt := count_eq_filter c p hp.1 (iy : Int)
  have hr : N - iy = (N - (iy + 1)) + 1 := by omega
  rw [hr, List.range'_succ, List.map_cons] at hns
  subst hns
  unfold meanLoop
  have hd' : p.drop (ix + c.count (iy : Int)) = p.filter fun i => iy + 1 ≤ (c.getD i 0).toNat := by
    rw [← List.drop_drop, sp, ← hcnt, List.drop_left]
  by_cases hpos : c.count (iy : Int) > 0
  · rw [if_pos hpos]
    have hmem : (iy : Int) ∈ c := List.count_pos_iff.1 hpos
    have hval : ((((p.drop ix).take (c.count (iy : Int))).map fun i => row.getD i 0).sum /
        ((c.count (iy : Int) : Nat) : α)) = meanAt c row iy := by
      rw [sp, ← hcnt, List.take_left, hcnt]
      unfold meanAt
      congr 1
      exact ((hp.1.filter _).map _).sum_eq
    simp only [hval]
    have hylt : iy < y.length := by omega
    by_cases hfin : ix + c.count (iy : Int) ≥ c.length
    · rw [if_pos hfin]
      refine ⟨_, rfl, by simp, ?_, ?_, ?_⟩
      · intro j hj
        rw [List.getElem?_set_ne (by omega)]
      · intro j hj hjm
        by_cases e : j = iy
        · subst e; simp [hylt]
        · exfalso
          have hnil : p.drop (ix + c.count (iy : Int)) = [] := by
            apply List.drop_eq_nil_of_le; omega
          rw [hnil] at hd'
          have hz := count_eq_filter c p hp.1 (j : Int)
          have : c.count (j : Int) > 0 := List.count_pos_iff.2 hjm
          rw [← hz] at this
          obtain ⟨i, hi⟩ := List.exists_mem_of_length_pos this
          simp only [List.mem_filter, decide_eq_true_eq] at hi
          have : i ∈ ([] : List Nat) := by
            rw [hd']
            simp only [List.mem_filter, decide_eq_true_eq]
            exact ⟨hi.1, by rw [hi.2]; omega⟩
          simp at this
      · intro j hj hjm
        have : j ≠ iy := by rintro rfl; exact hjm hmem
        rw [List.getElem?_set_ne (by omega)]
    · rw [if_neg hfin]
      obtain ⟨y', e1, e2, e3, e4, e5⟩ := meanLoop_spec hp h0 N hN _ (iy + 1) (ix + c.count (iy : Int))
        (y.set iy (meanAt c row iy)) rfl (by omega) hd' (by simpa using hy)
      refine ⟨y', e1, by simpa using e2, ?_, ?_, ?_⟩
      · intro j hj
        rw [e3 j (by omega), List.getElem?_set_ne (by omega)]
      · intro j hj hjm
        by_cases e : j = iy
        · subst e
          rw [e3 j (by omega)]
          simp [hylt]
        · exact e4 j (by omega) hjm
      · intro j hj hjm
        have : j ≠ iy := by rintro rfl; exact hjm hmem
        rw [e5 j (by omega) hjm, List.getElem?_set_ne (by omega)]
  · rw [if_neg hpos]
    have hz : c.count (iy : Int) = 0 := by omega
    have hnm : (iy : Int) ∉ c := fun h => hpos (List.count_pos_iff.2 h)
    rw [hz, Nat.add_zero] at hd'
    obtain ⟨y', e1, e2, e3, e4, e5⟩ := meanLoop_spec hp h0 N hN _ (iy + 1) ix y rfl hix hd' hy
    refine ⟨y', e1, e2, fun j hj => e3 j (by omega), ?_, ?_⟩
    · intro j hj hjm
      by_cases e : j = iy
      · subst e; exact absurd hjm hnm
      · exact e4 j (by omega) hjm
    · intro j hj hjm
      by_cases e : j = iy
      · subst e; exact e3 j (by omega)
      · exact e5 j (by omega) hjm
termination_by N - iy

theorem le_foldr_max {l : List Nat} {a : Nat} (h : a ∈ l) : a ≤ l.foldr max 0 := by
  induction l with
  | nil => simp at h
  | cons b r ih =>
    rw [List.foldr_cons]
    rcases List.mem_cons.1 h with rfl | h
    · omega
    · have := ih h; omega

theorem foldr_max_lt {l : List Nat} {n : Nat} (hn : 0 < n) (h : ∀ a ∈ l, a < n) : l.foldr max 0 < n := by
  induction l with
  | nil => simpa
  | cons b r ih =>
    rw [List.foldr_cons]
    have h1 := h b List.mem_cons_self
    have h2 := ih fun a ha => h a (List.mem_cons_of_mem _ ha)
    omega

end Mdp.Switchboard
