import Verif.Bi.LayerProps

/-!
# `stop_training` of a `CloneBiLayer` (C140)
-/

namespace Bi.Layer

open Py

variable {σ C V : Type}

/-- For copies, ending the training is a run of the layer without data. -/
theorem stop_eq_run {nodeId : Option Str} (hg : GoodId nodeId)
    {g : σ → Option (LMsg C V) → Except Err (LRes C V) × σ} {m : Option (LMsg C V)} {ss : List σ} {tr : Bool}
    (hm : ∀ d, m = some d → NoFlag nodeId d) :
    stop nodeId g m ⟨.copies ss, tr⟩ = run nodeId (fun s _ m => g s m) none m ⟨.copies ss, tr⟩ := by
  unfold stop run
  simp only [M.bind_def]
  rcases flagOf_noFlag (σ := σ) hg hm with ⟨e, he⟩ | he
  · rw [he]
  · rw [he]
    simp only [M.get_def, M.bind_def, size_copies]
    have : (List.replicate ss.length (none : Option (Arr C))) = (List.range ss.length).map (block ss.length · none) := by
      unfold block
      rw [List.map_const', List.length_range]
    rw [this]

/-- **C140** for `stop_training` of copies: every copy is ended once, in order, with its part of the message, and the
results are joined as in a run. -/
theorem layer_stop_copies {nodeId : Option Str} (hg : GoodId nodeId)
    {g : σ → Option (LMsg C V) → Except Err (LRes C V) × σ} {m : Option (LMsg C V)} {ss : List σ} {tr : Bool}
    {l' : LSt σ} {r : LRes C V} (hn : ss ≠ []) (hm : ∀ d, m = some d → NoFlag nodeId d)
    (h : stop nodeId g m ⟨.copies ss, tr⟩ = (.ok r, l')) :
    ∃ (ms : List (Option (LMsg C V))) (rs : List (LRes C V)) (ss' : List σ), ms.length = ss.length ∧ rs.length = ss.length ∧ ss'.length = ss.length ∧
      (∀ (i : Nat) mi, ms[i]? = some mi → MsgPart ss.length i m mi) ∧
      (∀ (i : Nat) s s' mi ri, ss[i]? = some s → ss'[i]? = some s' → ms[i]? = some mi → rs[i]? = some ri →
        g s mi = (.ok ri, s')) ∧
      (Quiet nodeId (fun s (_ : Option (Arr C)) m => g s m) → l'.nodes = .copies ss') ∧
      ((dataOf r = none ∧ (rs.map dataOf).getLast? = some none) ∨
        ∃ (as : List (Arr C)) (a : Arr C), rs.map dataOf = as.map some ∧ dataOf r = some a ∧
          (∀ b ∈ as, b.rows = a.rows) ∧ a.cols = (as.map Arr.cols).flatten) ∧
      ∀ (i : Nat) y mi t, rs[i]? = some (.triple y mi t) → t.isSome = true →
        (∀ j, i < j → ∀ y' m' t', rs[j]? ≠ some (.triple y' m' t')) → ∃ y' m', r = .triple y' m' t := by
  rw [stop_eq_run hg hm] at h
  have hpos : 0 < (Nodes.copies ss).size := by
    rw [size_copies]
    exact List.length_pos_iff.2 hn
  obtain ⟨ins, rs, nodes', a1, a2, a3, a4, a5, a6⟩ := layer_run_partial hg hpos hm (fun a ha => by cases ha) h
  cases nodes' with
  | shared s n => exact a3.elim
  | copies ss' =>
    obtain ⟨b1, b2, b3⟩ := a3
    rw [size_copies] at a1 a2
    refine ⟨ins.map Prod.snd, rs, ss', by rw [List.length_map, a1], by rw [b2, a1], b1, ?_, ?_, a4, a5, a6⟩
    · intro i mi hi
      rw [List.getElem?_map] at hi
      cases hx : ins[i]? with
      | none => rw [hx] at hi; cases hi
      | some p =>
        rw [hx] at hi
        cases hi
        exact (a2 i p.1 p.2 hx).2
    · intro i s s' mi ri h1 h2 h3 h4
      rw [List.getElem?_map] at h3
      cases hx : ins[i]? with
      | none => rw [hx] at h3; cases h3
      | some p =>
        rw [hx] at h3
        cases h3
        exact b3 i s s' p.1 p.2 ri h1 h2 hx h4

/-- **C140** for `stop_training` of a shared node: the node is ended once, with the whole message, and what it gives is
the result of the layer; an empty message is left out. -/
theorem layer_stop_shared {nodeId : Option Str} (hg : GoodId nodeId)
    {g : σ → Option (LMsg C V) → Except Err (LRes C V) × σ} {m : Option (LMsg C V)} {s : σ} {n : Nat} {tr : Bool}
    {l' : LSt σ} {r : LRes C V} (hm : ∀ d, m = some d → NoFlag nodeId d)
    (h : stop nodeId g m ⟨.shared s n, tr⟩ = (.ok r, l')) :
    ∃ r0 s', g s m = (.ok r0, s') ∧ ((∀ d, msgOf r0 = some d → NoFlag nodeId d) →
      l' = ⟨.shared s' n, tr⟩ ∧ dataOf r = dataOf r0 ∧
      (∀ d, d ≠ [] → (msgOf r = some d ↔ msgOf r0 = some d)) ∧
      ∀ t, t.isSome = true → ((∃ y m, r = .triple y m t) ↔ ∃ y m, r0 = .triple y m t)) := by
  have hres : ∀ (y : Option (Arr C)) (m : Option (LMsg C V)) (t : BVal (LVal C V)),
      dataOf (resultOf y m t) = y ∧ (∀ d, d ≠ [] → (msgOf (resultOf y m t) = some d ↔ m = some d)) ∧
      ∀ t', t'.isSome = true → ((∃ y' m', resultOf y m t = .triple y' m' t') ↔ t = t') := by
    intro y m t
    refine ⟨dataOf_resultOf y m t, ?_, ?_⟩
    · intro d hd
      unfold resultOf
      split
      · rfl
      · split
        · rfl
        · rename_i h
          constructor
          · intro h'; cases h'
          · rintro rfl
            exfalso
            apply h
            unfold truthyMsg
            cases d with
            | nil => exact absurd rfl hd
            | cons e d => rfl
    · intro t' ht'
      unfold resultOf
      split
      · constructor
        · rintro ⟨_, _, h⟩; cases h; rfl
        · rintro rfl; exact ⟨_, _, rfl⟩
      · rename_i h
        constructor
        · rintro ⟨_, _, h'⟩
          split at h' <;> cases h'
        · rintro rfl
          exact absurd ht' h
  unfold stop at h
  obtain ⟨m', l0, h1, h2⟩ := M.bind_eq_ok h
  rcases flagOf_noFlag (σ := σ) hg hm with ⟨e, he⟩ | he
  · rw [he] at h1; cases h1
  · rw [he] at h1
    cases h1
    obtain ⟨l1, l2, h3, h4⟩ := M.bind_eq_ok h2
    cases h3
    dsimp only at h4
    generalize hq : g s m = q at h4 ⊢
    obtain ⟨q, s'⟩ := q
    obtain ⟨u, l3, h5, h6⟩ := M.bind_eq_ok h4
    cases h5
    obtain ⟨r0, l4, h7, h8⟩ := M.bind_eq_ok h6
    cases q with
    | error e => cases h7
    | ok r1 =>
      have h7' : r0 = r1 ∧ l4 = ⟨.shared s' n, tr⟩ := by
        cases h7
        exact ⟨rfl, rfl⟩
      obtain ⟨rfl, rfl⟩ := h7'
      refine ⟨r0, s', rfl, fun hf => ?_⟩
      cases r0 with
      | single y =>
        cases h8
        refine ⟨rfl, rfl, fun d _ => Iff.rfl, ?_⟩
        intro t _
        constructor <;> (rintro ⟨_, _, h⟩; cases h)
      | pair y m1 =>
        dsimp only at h8
        obtain ⟨m2, l5, h9, h10⟩ := M.bind_eq_ok h8
        rcases flagOf_noFlag (σ := σ) hg hf with ⟨e, he⟩ | he
        · change flagOf nodeId (msgOf (.pair y m1)) _ = _ at h9
          rw [he] at h9; cases h9
        · change flagOf nodeId (msgOf (.pair y m1)) _ = _ at h9
          rw [he] at h9
          cases h9
          cases h10
          obtain ⟨c1, c2, c3⟩ := hres y m1 .none
          refine ⟨rfl, c1, c2, ?_⟩
          intro t ht
          constructor
          · intro h
            have := (c3 t ht).1 h
            subst this
            cases ht
          · rintro ⟨_, _, h⟩; cases h
      | triple y m1 t1 =>
        dsimp only at h8
        obtain ⟨m2, l5, h9, h10⟩ := M.bind_eq_ok h8
        rcases flagOf_noFlag (σ := σ) hg hf with ⟨e, he⟩ | he
        · change flagOf nodeId (msgOf (.triple y m1 t1)) _ = _ at h9
          rw [he] at h9; cases h9
        · change flagOf nodeId (msgOf (.triple y m1 t1)) _ = _ at h9
          rw [he] at h9
          cases h9
          cases h10
          obtain ⟨c1, c2, c3⟩ := hres y m1 t1
          refine ⟨rfl, c1, c2, ?_⟩
          intro t ht
          refine (c3 t ht).trans ?_
          constructor
          · rintro rfl; exact ⟨_, _, rfl⟩
          · rintro ⟨_, _, h⟩; cases h; rfl

example : (stop none (fun s _ => (.ok (.triple (some ⟨[0], 1, ['a']⟩) (some []) (.int 2)), s + 1)) none
      (⟨.copies [1, 2, 3], true⟩ : LSt Nat) : Except Err (LRes Char Nat) × LSt Nat).2.nodes.size = 3 := by decide

end Bi.Layer
