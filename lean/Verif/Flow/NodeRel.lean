import Verif.Flow.Model

/-! # What training a flow may do to its nodes -/

namespace Mdp.Flow

open Py Mdp.Node

variable {σ α β : Type}

/-- A relation between a node and what becomes of it, closed under the calls a flow makes. -/
structure NodeRel (R : Nd σ α β → Nd σ α β → Prop) : Prop where
  refl : ∀ n, R n n
  trans : ∀ {a b c}, R a b → R b c → R a c
  train : ∀ (n : Nd σ α β) x args, R n ⟨n.K, (Mdp.Node.train n.K x args n.s).2⟩
  stop : ∀ n : Nd σ α β, R n ⟨n.K, (stopTraining n.K n.s).2⟩
  exec : ∀ (n : Nd σ α β) x, R n ⟨n.K, (Mdp.Node.execute n.K x n.s).2⟩

variable {R : Nd σ α β → Nd σ α β → Prop}

theorem NodeRel.reflL (h : NodeRel R) (l : List (Nd σ α β)) : List.Forall₂ R l l := by
  induction l with
  | nil => exact .nil
  | cons n r ih => exact .cons (h.refl n) ih

theorem NodeRel.transL (h : NodeRel R) {a b c : List (Nd σ α β)} (h1 : List.Forall₂ R a b) (h2 : List.Forall₂ R b c) :
    List.Forall₂ R a c := by
  induction h1 generalizing c with
  | nil => cases h2; exact .nil
  | cons h3 _ ih =>
    cases h2 with
    | cons h4 h5 => exact .cons (h.trans h3 h4) (ih h5)

theorem forall₂_append {a a' b b' : List (Nd σ α β)} (h1 : List.Forall₂ R a a') (h2 : List.Forall₂ R b b') :
    List.Forall₂ R (a ++ b) (a' ++ b') := by
  induction h1 with
  | nil => exact h2
  | cons h _ ih => exact .cons h ih

theorem NodeRel.execSeq (h : NodeRel R) (i k : Nat) (l : List (Nd σ α β)) (x : Arr α) :
    List.Forall₂ R l (Mdp.Flow.execSeq i k l x).2 := by
  induction l generalizing i k x with
  | nil => cases k <;> exact .nil
  | cons n r ih =>
    cases k with
    | zero => exact h.reflL _
    | succ k =>
      simp only [Mdp.Flow.execSeq]
      have h1 := h.exec n x
      split
      · next e s heq => rw [heq] at h1; exact .cons h1 (h.reflL r)
      · next y s heq => rw [heq] at h1; exact .cons h1 (ih (i + 1) k y)

theorem NodeRel.trainChunks (h : NodeRel R) (pre : List (Nd σ α β)) (nd : Nd σ α β) (cs : List (Arr α × List β)) :
    List.Forall₂ R pre (Mdp.Flow.trainChunks pre nd cs).2.1 ∧ R nd (Mdp.Flow.trainChunks pre nd cs).2.2 := by
  induction cs generalizing pre nd with
  | nil => exact ⟨h.reflL _, h.refl _⟩
  | cons c r ih =>
    obtain ⟨x, args⟩ := c
    rw [Mdp.Flow.trainChunks]
    split
    · exact ⟨h.reflL _, h.refl _⟩
    · have h1 := h.execSeq 0 pre.length pre x
      split
      · next e pre' heq => rw [heq] at h1; exact ⟨h1, h.refl _⟩
      · next v pre' heq =>
        rw [heq] at h1
        have h2 := h.train nd v args
        split
        · next e s heq2 => rw [heq2] at h2; exact ⟨h1, h2⟩
        · next s heq2 =>
          rw [heq2] at h2
          obtain ⟨h3, h4⟩ := ih pre' ⟨nd.K, s⟩
          exact ⟨h.transL h1 h3, h.trans h2 h4⟩

theorem NodeRel.trainRounds (h : NodeRel R) (pre : List (Nd σ α β)) (nd : Nd σ α β) (it : Chunks α β) (k : Nat) :
    List.Forall₂ R pre (Mdp.Flow.trainRounds pre nd it k).2.1 ∧ R nd (Mdp.Flow.trainRounds pre nd it k).2.2 := by
  generalize hm : ((nd.K.nPhases : Int) - nd.s.phase).toNat = m
  induction m using Nat.strongRecOn generalizing pre nd k with
  | _ m ih =>
    have h1 := h.trainChunks pre nd (it k)
    have hp := trainChunks_phase (it k) pre nd
    have hK := trainChunks_K (it k) pre nd
    rw [Mdp.Flow.trainRounds]
    split
    · next e pre' nd' heq => rw [heq] at h1; exact h1
    · next pre' nd' heq =>
      rw [heq] at h1 hp hK
      simp only at h1 hp hK
      split
      · exact h1
      · split
        · next hr =>
          have h2 := h.stop nd'
          split
          · next e s heq2 => rw [heq2] at h2; exact ⟨h1.1, h.trans h1.2 h2⟩
          · next s heq2 =>
            rw [heq2] at h2
            have h3 := stopTraining_ok_phase nd'.K nd'.s s heq2
            obtain ⟨h4, h5⟩ := ih (((nd'.K.nPhases : Int) - s.phase).toNat) (by
              unfold remaining at hr
              rw [hK] at hr ⊢
              split at hr <;> omega) pre' ⟨nd'.K, s⟩ (k + 1) rfl
            exact ⟨h.transL h1.1 h4, h.trans (h.trans h1.2 h2) h5⟩
        · exact h1

theorem NodeRel.trainNode (h : NodeRel R) (pre : List (Nd σ α β)) (nd : Nd σ α β) (d : Elem α β) :
    List.Forall₂ R pre (Mdp.Flow.trainNode pre nd d).2.1 ∧ R nd (Mdp.Flow.trainNode pre nd d).2.2 := by
  unfold Mdp.Flow.trainNode
  cases d with
  | it c =>
    simp only
    split
    · exact ⟨h.reflL _, h.refl _⟩
    · exact h.trainRounds pre nd c 0
  | none =>
    simp only
    split
    · exact ⟨h.reflL _, h.refl _⟩
    · split
      · exact ⟨h.reflL _, h.refl _⟩
      · exact ⟨h.reflL _, h.refl _⟩
  | notIterable => exact ⟨h.reflL _, h.refl _⟩

theorem NodeRel.trainFrom (h : NodeRel R) (pre rest : List (Nd σ α β)) (ds : List (Elem α β)) :
    List.Forall₂ R (pre ++ rest) (Mdp.Flow.trainFrom pre rest ds).2 := by
  induction rest generalizing pre ds with
  | nil => rw [Mdp.Flow.trainFrom, List.append_nil]; exact h.reflL _
  | cons nd r ih =>
    cases ds with
    | nil => rw [Mdp.Flow.trainFrom]; exact h.reflL _
    | cons d ds =>
      rw [Mdp.Flow.trainFrom]
      obtain ⟨h1, h2⟩ := h.trainNode pre nd d
      split
      · next e pre' nd' heq => rw [heq] at h1 h2; exact forall₂_append h1 (.cons h2 (h.reflL r))
      · next pre' nd' heq =>
        rw [heq] at h1 h2
        have := ih (pre' ++ [nd']) ds
        rw [List.append_assoc] at this
        exact h.transL (forall₂_append h1 (.cons h2 (h.reflL r))) this

theorem NodeRel.closeLast (h : NodeRel R) (fl : List (Nd σ α β)) : List.Forall₂ R fl (Mdp.Flow.closeLast fl).2 := by
  unfold Mdp.Flow.closeLast
  rcases List.eq_nil_or_concat fl with rfl | ⟨ini, m, rfl⟩
  · exact .nil
  · simp only [List.concat_eq_append]
    rw [List.getLast?_concat, List.dropLast_concat]
    have h1 := h.stop m
    simp only
    split
    · next s heq => rw [heq] at h1; exact forall₂_append (h.reflL _) (.cons h1 .nil)
    · next s heq => rw [heq] at h1; exact forall₂_append (h.reflL _) (.cons h1 .nil)
    · next e s _ heq => rw [heq] at h1; exact forall₂_append (h.reflL _) (.cons h1 .nil)

/-- Training a flow, whether it succeeds or not. -/
theorem NodeRel.flowTrain (h : NodeRel R) (fl : List (Nd σ α β)) (d : TrainArg α β) :
    List.Forall₂ R fl (Flow.train fl d).2 := by
  unfold Flow.train
  split
  · exact h.reflL _
  · next l _ =>
    have h1 := h.trainFrom [] fl l
    rw [List.nil_append] at h1
    split
    · next e fl' heq => rw [heq] at h1; exact h1
    · next fl' heq => rw [heq] at h1; exact h.transL h1 (h.closeLast fl')

end Mdp.Flow
