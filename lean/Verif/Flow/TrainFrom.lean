import Verif.Flow.TrainLemmas

namespace Mdp.Flow

open Py Mdp.Node

variable {σ α β : Type}

theorem LaterL.get {a b : List (Nd σ α β)} (h : LaterL a b) (i : Nat) (n : Nd σ α β) (hn : a[i]? = some n) :
    ∃ m, b[i]? = some m ∧ Later n m := by
  unfold LaterL at h
  induction h generalizing i with
  | nil => simp at hn
  | cons h1 _ ih =>
    cases i with
    | zero => simp at hn; subst hn; exact ⟨_, by simp, h1⟩
    | succ i => exact ih i (by simpa using hn)

theorem LaterL.take {a b : List (Nd σ α β)} (h : LaterL a b) (k : Nat) : LaterL (a.take k) (b.take k) := by
  unfold LaterL at *
  induction h generalizing k with
  | nil => simp
  | cons h1 _ ih =>
    cases k with
    | zero => simp
    | succ k => exact .cons h1 (ih k)

theorem LaterL.append {a b c d : List (Nd σ α β)} (h : LaterL a b) (h' : LaterL c d) :
    LaterL (a ++ c) (b ++ d) := by
  unfold LaterL at *
  induction h with
  | nil => simpa using h'
  | cons h1 _ ih => exact .cons h1 ih

/-- The loop over the nodes, when it succeeds. -/
theorem trainFrom_ok (pre rest : List (Nd σ α β)) (ds : List (Elem α β)) (fl' : List (Nd σ α β))
    (hpre : ∀ n ∈ pre, Ready n) (hrest : ∀ n ∈ rest, Nice n.K ∧ Inv n.K n.s)
    (h : trainFrom pre rest ds = (.ok (), fl')) :
    fl'.length = pre.length + rest.length ∧ LaterL pre (fl'.take pre.length) ∧ (∀ n ∈ fl', Ready n) ∧
    ∀ i nd, rest[i]? = some nd → ∃ d nd', ds[i]? = some d ∧ fl'[pre.length + i]? = some nd' ∧
      TrainedOn (fl'.take (pre.length + i)) nd d nd' ∧
      (∀ c, d = .it c → nd.K.trainable = true → ∀ n ∈ fl'.take (pre.length + i), Stable n.s) := by
  induction rest generalizing pre ds with
  | nil =>
    rw [trainFrom] at h
    cases h
    refine ⟨by simp, by simpa using LaterL.refl _, hpre, by simp⟩
  | cons nd rest ih =>
    cases ds with
    | nil => rw [trainFrom] at h; cases h
    | cons d ds =>
      rw [trainFrom] at h
      split at h
      · cases h
      · next pre1 nd1 ht =>
        obtain ⟨hnice, hinv⟩ := hrest nd (by simp)
        obtain ⟨a1, a2, a3, a4, a5⟩ := trainNode_ok pre pre1 nd nd1 d hpre hnice hinv ht
        obtain ⟨b1, b2, b3, b4⟩ := ih (pre1 ++ [nd1]) ds (by
            intro n hn
            rcases List.mem_append.1 hn with hn | hn
            · exact a2 n hn
            · rw [List.mem_singleton.1 hn]; exact a3) (fun n hn => hrest n (by simp [hn])) h
        have hl1 := a1.length
        simp only [List.length_append, List.length_singleton, hl1] at b1 b2 b4
        have hb2 : LaterL pre1 (fl'.take pre.length) := by
          have := b2.take pre.length
          rw [List.take_take, List.take_append_of_le_length (by omega), List.take_of_length_le (by omega)] at this
          rwa [show min pre.length (pre.length + 1) = pre.length by omega] at this
        refine ⟨by simp; omega, a1.trans hb2, b3, ?_⟩
        intro i m hm
        cases i with
        | zero =>
          simp only [List.getElem?_cons_zero, Option.some.injEq] at hm
          subst hm
          obtain ⟨m', hm', hl⟩ := b2.get pre.length nd1 (by
            rw [List.getElem?_append_right (by omega)]; simp [hl1])
          rw [List.getElem?_take] at hm'
          simp only [Nat.lt_succ_self, ite_true] at hm'
          refine ⟨d, m', rfl, hm', ?_, ?_⟩
          · refine a4.later hinv hl ?_ ?_
            · rintro ⟨c, hc, hk⟩
              exact hb2.sameVis (a5 c hc hk)
            · intro htr
              by_contra hk
              have := (hinv.ntr (by simpa using hk)).2.1
              rw [htr] at this; cases this
          · intro c hc hk
            exact hb2.stable (a5 c hc hk)
        | succ i =>
          obtain ⟨d', m', e1, e2, e3, e4⟩ := b4 i m (by simpa using hm)
          rw [show pre.length + 1 + i = pre.length + (i + 1) by omega] at e2 e3 e4
          exact ⟨d', m', by simpa using e1, e2, e3, e4⟩

end Mdp.Flow
