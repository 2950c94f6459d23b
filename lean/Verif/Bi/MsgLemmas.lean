import Verif.Bi.Msg

/-!
# The address syntax of messages: specification and lemmas
-/

namespace Bi

open Py

variable {V : Type}

/-- The key under which a message addresses the entry `k` to the node `id`: `"id->k"`. -/
def addr (id k : Str) : Str := id ++ ['-', '>'] ++ k

/-- The string contains the separator. -/
def HasSep (s : Str) : Prop := ∃ a b, s = addr a b

/-- A usable node id: not empty and without the separator; or no id at all. -/
def GoodId (nodeId : Option Str) : Prop := ∀ id, nodeId = some id → id ≠ [] ∧ ¬ HasSep id

/-- The key is addressed to the node, with entry `k`. -/
def IsFor (nodeId : Option Str) (key k : Str) : Prop := ∃ id, nodeId = some id ∧ key = addr id k

/-- The key is addressed to the node. -/
def Addressed (nodeId : Option Str) (key : Str) : Prop := ∃ k, IsFor nodeId key k

/-- A message is well addressed if no key consists of more than two parts. -/
def WellAddressed (m : Msg V) : Prop :=
  ∀ key ∈ Dict.keys m, ∀ a b, key = addr a b → a ≠ [] → ¬ HasSep a → ¬ HasSep b

/-- The entry `k` of the message for the node: the value addressed to it. -/
def mine (nodeId : Option Str) (m : Msg V) (k : Str) : Option (BVal V) :=
  match nodeId with
  | some id => Dict.get m (addr id k)
  | none => none

theorem addr_def (a b : Str) : addr a b = a ++ '-' :: '>' :: b := by
  simp [addr]

theorem key_cases (s : Str) :
    (¬ HasSep s ∧ split s = [s] ∧ find s = -1) ∨
      ∃ a b, s = addr a b ∧ ¬ HasSep a ∧ split s = a :: split b ∧ find s = (a.length : Int) := by
  induction s with
  | nil =>
    refine .inl ⟨?_, rfl, rfl⟩
    rintro ⟨a, b, h⟩
    rw [addr_def] at h
    cases a <;> cases h
  | cons c r ih =>
    by_cases hc : c = '-' ∧ ∃ r', r = '>' :: r'
    · obtain ⟨rfl, r', rfl⟩ := hc
      refine .inr ⟨[], r', rfl, ?_, rfl, rfl⟩
      rintro ⟨a, b, h⟩
      rw [addr_def] at h
      cases a <;> cases h
    · have hs : split (c :: r) = match split r with | [] => [[c]] | h :: t => (c :: h) :: t := by
        refine split.eq_3 c r ?_
        rintro r' rfl hr'
        exact hc ⟨rfl, r', hr'⟩
      have hf : find (c :: r) = if find r < 0 then -1 else find r + 1 := by
        refine find.eq_3 c r ?_
        rintro r' rfl hr'
        exact hc ⟨rfl, r', hr'⟩
      rcases ih with ⟨h1, h2, h3⟩ | ⟨a, b, h1, h2, h3, h4⟩
      · refine .inl ⟨?_, ?_, ?_⟩
        · rintro ⟨a, b, h⟩
          rw [addr_def] at h
          cases a with
          | nil =>
            simp only [List.nil_append, List.cons.injEq] at h
            exact hc ⟨h.1, b, h.2⟩
          | cons a0 a =>
            simp only [List.cons_append, List.cons.injEq] at h
            exact h1 ⟨a, b, by rw [addr_def]; exact h.2⟩
        · rw [hs, h2]
        · rw [hf, h3]; rfl
      · refine .inr ⟨c :: a, b, ?_, ?_, ?_, ?_⟩
        · rw [h1, addr_def, addr_def]; rfl
        · rintro ⟨a', b', h⟩
          rw [addr_def] at h
          cases a' with
          | nil =>
            simp only [List.nil_append, List.cons.injEq] at h
            refine hc ⟨h.1, ?_⟩
            rw [h1, addr_def, h.2]
            exact ⟨_, rfl⟩
          | cons a0 a' =>
            simp only [List.cons_append, List.cons.injEq] at h
            exact h2 ⟨a', b', by rw [addr_def]; exact h.2⟩
        · rw [hs, h3]
        · rw [hf, h4, if_neg (by omega)]
          simp

theorem addr_inj {id k id' k' : Str} (h1 : ¬ HasSep id) (h2 : ¬ HasSep id') (h : addr id k = addr id' k') :
    id = id' ∧ k = k' := by
  induction id generalizing id' with
  | nil =>
    cases id' with
    | nil =>
      simp only [addr_def, List.nil_append, List.cons.injEq, true_and] at h
      exact ⟨rfl, h⟩
    | cons c id' =>
      exfalso
      simp only [addr_def, List.nil_append, List.cons_append, List.cons.injEq] at h
      obtain ⟨rfl, h⟩ := h
      cases id' with
      | nil => cases h
      | cons d id' =>
        simp only [List.cons_append, List.cons.injEq] at h
        obtain ⟨rfl, h⟩ := h
        exact h2 ⟨[], id', rfl⟩
  | cons c id ih =>
    cases id' with
    | nil =>
      exfalso
      simp only [addr_def, List.nil_append, List.cons_append, List.cons.injEq] at h
      obtain ⟨rfl, h⟩ := h
      cases id with
      | nil => cases h
      | cons d id =>
        simp only [List.cons_append, List.cons.injEq] at h
        obtain ⟨rfl, h⟩ := h
        exact h1 ⟨[], id, rfl⟩
    | cons c' id' =>
      simp only [addr_def, List.cons_append, List.cons.injEq] at h
      have hn : ∀ (c : Char) (l : Str), ¬ HasSep (c :: l) → ¬ HasSep l := by
        rintro c l hl ⟨a, b, rfl⟩
        exact hl ⟨c :: a, b, rfl⟩
      have := ih (hn _ _ h1) (hn _ _ h2) (by rw [addr_def, addr_def]; exact h.2)
      exact ⟨by rw [h.1, this.1], this.2⟩

theorem split_two (s a k : Str) : split s = [a, k] ↔ s = addr a k ∧ ¬ HasSep a ∧ ¬ HasSep k := by
  constructor
  · intro h
    rcases key_cases s with ⟨_, h2, _⟩ | ⟨a', b, h1, h2, h3, _⟩
    · rw [h2] at h; cases h
    · rw [h3] at h
      simp only [List.cons.injEq] at h
      obtain ⟨rfl, h⟩ := h
      rcases key_cases b with ⟨g1, g2, _⟩ | ⟨a2, b2, _, _, g3, _⟩
      · rw [g2] at h
        simp only [List.cons.injEq, and_true] at h
        subst h
        exact ⟨h1, h2, g1⟩
      · rw [g3] at h
        exfalso
        have : split b2 ≠ [] := by
          rcases key_cases b2 with ⟨_, q, _⟩ | ⟨_, _, _, _, q, _⟩ <;> rw [q] <;> simp
        simp only [List.cons.injEq] at h
        exact this h.2
  · rintro ⟨h1, h2, h3⟩
    rcases key_cases s with ⟨g1, _, _⟩ | ⟨a', b, g1, g2, g3, _⟩
    · exact absurd ⟨a, k, h1⟩ g1
    · have e := addr_inj h2 g2 (h1.symm.trans g1)
      rcases key_cases k with ⟨_, q, _⟩ | ⟨a2, b2, q, _⟩
      · rw [g3, ← e.1, ← e.2, q]
      · exact absurd ⟨a2, b2, q⟩ h3

theorem find_pos (s : Str) : find s > 0 ↔ ∃ a b, s = addr a b ∧ ¬ HasSep a ∧ a ≠ [] := by
  rcases key_cases s with ⟨h1, _, h3⟩ | ⟨a, b, h1, h2, _, h4⟩
  · rw [h3]
    constructor
    · intro h; omega
    · rintro ⟨a, b, h, _⟩; exact absurd ⟨a, b, h⟩ h1
  · rw [h4]
    constructor
    · intro h
      refine ⟨a, b, h1, h2, ?_⟩
      rintro rfl
      simp at h
    · rintro ⟨a', b', g1, g2, g3⟩
      have e := addr_inj g2 h2 (g1.symm.trans h1)
      rw [← e.1]
      have := List.length_pos_iff.2 g3
      omega

/-- Exactly one step of the loop. -/
theorem idKeysLoop_cons (nodeId : Option Str) (full : Str) (r : List Str) (acc : List (Str × Str)) :
    idKeysLoop nodeId (full :: r) acc =
      if find full > 0 then
        match split full with
        | [a, k] => if some a = nodeId then idKeysLoop nodeId r (acc ++ [(k, full)]) else idKeysLoop nodeId r acc
        | _ => .error .valueError
      else idKeysLoop nodeId r acc := rfl

/-- A key of more than two parts, with a first part that is not empty, is an error; otherwise the loop returns. -/
theorem idKeysLoop_ok (nodeId : Option Str) (ks : List Str) (acc : List (Str × Str)) :
    (∃ ids, idKeysLoop nodeId ks acc = .ok ids) ↔
      ∀ key ∈ ks, ∀ a b, key = addr a b → a ≠ [] → ¬ HasSep a → ¬ HasSep b := by
  induction ks generalizing acc with
  | nil => exact ⟨fun _ key h => absurd h List.not_mem_nil, fun _ => ⟨acc, rfl⟩⟩
  | cons full r ih =>
    rw [idKeysLoop_cons]
    simp only [List.forall_mem_cons]
    by_cases hf : find full > 0
    · rw [if_pos hf]
      obtain ⟨a, b, h1, h2, h3⟩ := (find_pos full).1 hf
      by_cases hb : HasSep b
      · have : ¬ ∃ a' k', split full = [a', k'] := by
          rintro ⟨a', k', h⟩
          have g := (split_two _ _ _).1 h
          have e := addr_inj h2 g.2.1 (h1.symm.trans g.1)
          exact g.2.2 (e.2 ▸ hb)
        constructor
        · rintro ⟨ids, h⟩
          split at h
          · rename_i a' k' e
            exact absurd ⟨a', k', e⟩ this
          · cases h
        · rintro ⟨h, _⟩
          exact absurd hb (h a b h1 h3 h2)
      · have e : split full = [a, b] := (split_two _ _ _).2 ⟨h1, h2, hb⟩
        have hfull : ∀ a' b', full = addr a' b' → a' ≠ [] → ¬ HasSep a' → ¬ HasSep b' := by
          intro a' b' g1 _ g2
          have e := addr_inj h2 g2 (h1.symm.trans g1)
          exact e.2 ▸ hb
        rw [e]
        simp only
        constructor
        · intro h
          refine ⟨hfull, ?_⟩
          split at h
          · exact (ih _).1 h
          · exact (ih _).1 h
        · rintro ⟨_, h⟩
          split
          · exact (ih _).2 h
          · exact (ih _).2 h
    · rw [if_neg hf, ih]
      constructor
      · intro h
        refine ⟨?_, h⟩
        intro a b h1 h2 h3
        exact absurd ((find_pos full).2 ⟨a, b, h1, h3, h2⟩) hf
      · exact fun h => h.2

/-- What the loop collects. -/
theorem idKeysLoop_mem {nodeId : Option Str} (hg : GoodId nodeId) {ks : List Str} {acc ids : List (Str × Str)}
    (h : idKeysLoop nodeId ks acc = .ok ids) (k full : Str) :
    (k, full) ∈ ids ↔ (k, full) ∈ acc ∨ (full ∈ ks ∧ IsFor nodeId full k) := by
  induction ks generalizing acc with
  | nil =>
    simp only [idKeysLoop, Except.ok.injEq] at h
    subst h
    simp
  | cons f r ih =>
    have hok := (idKeysLoop_ok nodeId (f :: r) acc).1 ⟨ids, h⟩
    rw [idKeysLoop_cons] at h
    by_cases hf : find f > 0
    · rw [if_pos hf] at h
      obtain ⟨a, b, h1, h2, h3⟩ := (find_pos f).1 hf
      have hb := hok f List.mem_cons_self a b h1 h3 h2
      rw [(split_two _ _ _).2 ⟨h1, h2, hb⟩] at h
      simp only at h
      by_cases hn : some a = nodeId
      · rw [if_pos hn] at h
        rw [ih h]
        simp only [List.mem_append, List.mem_singleton, Prod.mk.injEq, List.mem_cons, List.not_mem_nil, or_false]
        constructor
        · rintro ((h' | ⟨rfl, rfl⟩) | h')
          · exact .inl h'
          · exact .inr ⟨.inl rfl, a, hn.symm, h1⟩
          · exact .inr ⟨.inr h'.1, h'.2⟩
        · rintro (h' | ⟨rfl | h', hi⟩)
          · exact .inl (.inl h')
          · obtain ⟨id, e1, e2⟩ := hi
            have e := addr_inj h2 (hg id e1).2 (h1.symm.trans e2)
            exact .inl (.inr ⟨e.2.symm, rfl⟩)
          · exact .inr ⟨h', hi⟩
      · rw [if_neg hn] at h
        rw [ih h]
        simp only [List.mem_cons]
        constructor
        · rintro (h' | h')
          · exact .inl h'
          · exact .inr ⟨.inr h'.1, h'.2⟩
        · rintro (h' | ⟨rfl | h', hi⟩)
          · exact .inl h'
          · obtain ⟨id, e1, e2⟩ := hi
            have e := addr_inj h2 (hg id e1).2 (h1.symm.trans e2)
            exact absurd (by rw [e.1, e1]) hn
          · exact .inr ⟨h', hi⟩
    · rw [if_neg hf] at h
      rw [ih h]
      simp only [List.mem_cons]
      constructor
      · rintro (h' | h')
        · exact .inl h'
        · exact .inr ⟨.inr h'.1, h'.2⟩
      · rintro (h' | ⟨rfl | h', hi⟩)
        · exact .inl h'
        · obtain ⟨id, e1, e2⟩ := hi
          exact absurd ((find_pos _).2 ⟨id, k, e2, (hg id e1).2, (hg id e1).1⟩) hf
        · exact .inr ⟨h', hi⟩

theorem idKeysLoop_sub {nodeId : Option Str} {ks : List Str} {acc ids : List (Str × Str)}
    (h : idKeysLoop nodeId ks acc = .ok ids) :
    ∃ l, ids = acc ++ l ∧ (l.map Prod.snd).Sublist ks := by
  induction ks generalizing acc with
  | nil =>
    simp only [idKeysLoop, Except.ok.injEq] at h
    subst h
    exact ⟨[], by simp, by simp⟩
  | cons f r ih =>
    rw [idKeysLoop_cons] at h
    split at h
    · split at h
      · split at h
        · obtain ⟨l, e, hs⟩ := ih h
          refine ⟨_ :: l, by rw [e, List.append_assoc]; rfl, ?_⟩
          exact List.Sublist.cons_cons f hs
        · obtain ⟨l, e, hs⟩ := ih h
          exact ⟨l, e, hs.trans (List.sublist_cons_self f r)⟩
      · cases h
    · obtain ⟨l, e, hs⟩ := ih h
      exact ⟨l, e, hs.trans (List.sublist_cons_self f r)⟩

/-- The relation between a message and its id keys during the extraction. -/
structure Inv (nodeId : Option Str) (m : Msg V) (ids : List (Str × Str)) : Prop where
  ok : Dict.Ok m
  nodup : (ids.map Prod.snd).Nodup
  mem : ∀ k full, (k, full) ∈ ids ↔ full ∈ Dict.keys m ∧ IsFor nodeId full k

theorem Inv.start {nodeId : Option Str} (hg : GoodId nodeId) {m : Msg V} (hm : Dict.Ok m) {ids : List (Str × Str)}
    (h : getMsgIdKeys nodeId m = .ok ids) : Inv nodeId m ids where
  ok := hm
  nodup := by
    obtain ⟨l, e, hs⟩ := idKeysLoop_sub h
    rw [e, List.nil_append]
    exact List.Nodup.sublist hs hm
  mem := fun k full => by
    have := idKeysLoop_mem hg h k full
    simpa using this

theorem IsFor.key {nodeId : Option Str} (hg : GoodId nodeId) {full k k' : Str} (h : IsFor nodeId full k)
    (h' : IsFor nodeId full k') : k = k' := by
  obtain ⟨id, e, h⟩ := h
  obtain ⟨id', e', h'⟩ := h'
  exact (addr_inj (hg id e).2 (hg id' e').2 (h.symm.trans h')).2

theorem Inv.erase {nodeId : Option Str} {m : Msg V} {l r : List (Str × Str)} {k full : Str}
    (h : Inv nodeId m (l ++ (k, full) :: r)) : Inv nodeId (Dict.erase m full) (l ++ r) where
  ok := Dict.erase_ok _ _ h.ok
  nodup := by
    have := h.nodup
    simp only [List.map_append, List.map_cons] at this ⊢
    exact (List.perm_middle.nodup_iff.1 this).of_cons
  mem := fun k' full' => by
    have hn := h.nodup
    simp only [List.map_append, List.map_cons] at hn
    have hn' := (List.nodup_cons.1 (List.perm_middle.nodup_iff.1 hn)).1
    have hm := h.mem k' full'
    rw [Dict.keys_get, Dict.get_erase]
    rw [Dict.keys_get] at hm
    constructor
    · intro hx
      have hne : full ≠ full' := by
        rintro rfl
        refine hn' ?_
        rw [← List.map_append]
        exact List.mem_map.2 ⟨_, hx, rfl⟩
      rw [if_neg hne, ← hm]
      simp only [List.mem_append, List.mem_cons] at hx ⊢
      rcases hx with hx | hx
      · exact .inl hx
      · exact .inr (.inr hx)
    · rintro ⟨h1, h2⟩
      have hne : full ≠ full' := by
        rintro rfl
        simp at h1
      rw [if_neg hne] at h1
      have := hm.2 ⟨h1, h2⟩
      simp only [List.mem_append, List.mem_cons, Prod.mk.injEq] at this ⊢
      rcases this with hx | ⟨_, e⟩ | hx
      · exact .inl hx
      · exact absurd e.symm hne
      · exact .inr hx

theorem popIdKey_none {key : Str} {ids : List (Str × Str)} (h : popIdKey key ids = none) :
    ∀ full, (key, full) ∉ ids := by
  induction ids with
  | nil => simp
  | cons p r ih =>
    obtain ⟨k, f⟩ := p
    unfold popIdKey at h
    split at h
    · cases h
    · rename_i hk
      intro full hx
      simp only [List.mem_cons, Prod.mk.injEq] at hx
      rcases hx with ⟨e, _⟩ | hx
      · exact hk e
      · refine ih ?_ full hx
        generalize popIdKey key r = q at h
        cases q with
        | none => rfl
        | some q => cases h

theorem popIdKey_some {key full : Str} {ids ids' : List (Str × Str)} (h : popIdKey key ids = some (full, ids')) :
    ∃ l r, ids = l ++ (key, full) :: r ∧ ids' = l ++ r := by
  induction ids generalizing ids' with
  | nil => cases h
  | cons p r ih =>
    obtain ⟨k, f⟩ := p
    unfold popIdKey at h
    split at h
    · rename_i hk
      simp only [Option.some.injEq, Prod.mk.injEq] at h
      exact ⟨[], r, by rw [hk, h.1]; rfl, h.2.symm⟩
    · generalize e : popIdKey key r = q at h
      cases q with
      | none => cases h
      | some q =>
        obtain ⟨f', r'⟩ := q
        simp only [Option.some.injEq, Prod.mk.injEq] at h
        obtain ⟨rfl, rfl⟩ := h
        obtain ⟨l, r2, e1, e2⟩ := ih e
        exact ⟨(k, f) :: l, r2, by rw [e1]; rfl, by rw [e2]; rfl⟩

theorem mine_get {nodeId : Option Str} {m : Msg V} {full k : Str} (h : IsFor nodeId full k) :
    mine nodeId m k = Dict.get m full := by
  obtain ⟨id, e, h⟩ := h
  rw [h, e]; rfl

theorem mine_none {nodeId : Option Str} {m : Msg V} {k : Str} (h : ∀ full ∈ Dict.keys m, ¬ IsFor nodeId full k) :
    mine nodeId m k = none := by
  unfold mine
  split
  · rename_i id
    rw [Dict.get_none]
    exact fun hk => h _ hk ⟨id, rfl, rfl⟩
  · rfl

theorem mine_erase {nodeId : Option Str} (hg : GoodId nodeId) {m : Msg V} {full k k' : Str} (h : IsFor nodeId full k) :
    mine nodeId (Dict.erase m full) k' = if k = k' then none else mine nodeId m k' := by
  obtain ⟨id, e, h⟩ := h
  subst h
  unfold mine
  rw [e]
  simp only
  rw [Dict.get_erase]
  by_cases hk : k = k'
  · subst hk; simp
  · rw [if_neg hk, if_neg]
    intro e'
    exact hk (addr_inj (hg id e).2 (hg id e).2 e').2

/-- `_extract_message_key`: the addressed value wins over the plain one, and only an addressed entry is removed. -/
theorem extractKey_spec {nodeId : Option Str} (hg : GoodId nodeId) (key : Str) {m : Msg V} {ids : List (Str × Str)}
    (h : Inv nodeId m ids) :
    (extractKey key m ids).1 = ((mine nodeId m key).or (Dict.get m key)).getD .none ∧
      (∀ key', IsFor nodeId key' key → Dict.get (extractKey key m ids).2.1 key' = none) ∧
      (∀ key', ¬ IsFor nodeId key' key → Dict.get (extractKey key m ids).2.1 key' = Dict.get m key') ∧
      Inv nodeId (extractKey key m ids).2.1 (extractKey key m ids).2.2 := by
  unfold extractKey
  cases hp : popIdKey key ids with
  | some q =>
    obtain ⟨full, ids'⟩ := q
    obtain ⟨l, r, e1, e2⟩ := popIdKey_some hp
    subst e1 e2
    have hx := (h.mem key full).1 (by simp)
    have hs := (Dict.keys_get m full).1 hx.1
    refine ⟨?_, ?_, ?_, h.erase⟩
    · rw [mine_get hx.2]
      obtain ⟨v, hv⟩ := Option.isSome_iff_exists.1 hs
      simp only [hv, Option.some_or]
    · intro key' hk
      simp only [Dict.get_erase]
      have : full = key' := by
        obtain ⟨id, e, h1⟩ := hk
        obtain ⟨id', e', h2⟩ := hx.2
        rw [e] at e'
        cases e'
        rw [h1, h2]
      rw [if_pos this]
    · intro key' hk
      simp only [Dict.get_erase]
      rw [if_neg]
      rintro rfl
      exact hk hx.2
  | none =>
    have hn := popIdKey_none hp
    have hm : ∀ full ∈ Dict.keys m, ¬ IsFor nodeId full key := fun full hf hi => hn full ((h.mem key full).2 ⟨hf, hi⟩)
    refine ⟨?_, ?_, fun _ _ => rfl, h⟩
    · rw [mine_none hm, Option.none_or]
    · intro key' hk
      exact (Dict.get_none _ _).2 fun hx => hm _ hx hk

theorem argsLoop_spec {nodeId : Option Str} (hg : GoodId nodeId) (argKeys : List Str) {ids : List (Str × Str)}
    {m : Msg V} (args : Msg V) (h : Inv nodeId m ids) :
    (∀ key, Addressed nodeId key → Dict.get (argsLoop argKeys ids m args).1 key = none) ∧
      (∀ key, ¬ Addressed nodeId key → Dict.get (argsLoop argKeys ids m args).1 key = Dict.get m key) ∧
      (∀ k, Dict.get (argsLoop argKeys ids m args).2 k =
        if k ∈ argKeys then (mine nodeId m k).or (Dict.get args k) else Dict.get args k) ∧
      Dict.Ok (argsLoop argKeys ids m args).1 := by
  induction ids generalizing m args with
  | nil =>
    have hm : ∀ k, ∀ full ∈ Dict.keys m, ¬ IsFor nodeId full k := fun k full hf hi =>
      absurd ((h.mem k full).2 ⟨hf, hi⟩) List.not_mem_nil
    refine ⟨?_, fun _ _ => rfl, ?_, h.ok⟩
    · rintro key ⟨k, hk⟩
      exact (Dict.get_none _ _).2 fun hx => hm k _ hx hk
    · intro k
      rw [mine_none (hm k), Option.none_or]
      simp only [argsLoop, ite_self]
  | cons p r ih =>
    obtain ⟨k, full⟩ := p
    have hx := (h.mem k full).1 List.mem_cons_self
    have he : Inv nodeId (Dict.erase m full) r := Inv.erase (l := []) h
    have key : ∀ args', (∀ key, Addressed nodeId key → Dict.get (argsLoop argKeys r (Dict.erase m full) args').1 key = none) ∧
        (∀ key, ¬ Addressed nodeId key →
          Dict.get (argsLoop argKeys r (Dict.erase m full) args').1 key = Dict.get m key) ∧
        Dict.Ok (argsLoop argKeys r (Dict.erase m full) args').1 := by
      intro args'
      obtain ⟨h1, h2, _, h4⟩ := ih args' he
      refine ⟨h1, ?_, h4⟩
      intro key hk
      rw [h2 key hk, Dict.get_erase, if_neg]
      rintro rfl
      exact hk ⟨k, hx.2⟩
    unfold argsLoop
    by_cases hk : k ∈ argKeys
    · rw [if_pos hk]
      obtain ⟨a1, a2, a3⟩ := key (Dict.set args k ((Dict.get m full).getD .none))
      refine ⟨a1, a2, ?_, a3⟩
      intro k'
      rw [(ih _ he).2.2.1 k', mine_erase hg hx.2, Dict.get_set]
      by_cases e : k = k'
      · subst e
        obtain ⟨v, hv⟩ := Option.isSome_iff_exists.1 ((Dict.keys_get m full).1 hx.1)
        rw [mine_get hx.2, hv]
        simp [hk]
      · simp only [if_neg e]
    · rw [if_neg hk]
      obtain ⟨a1, a2, a3⟩ := key args
      refine ⟨a1, a2, ?_, a3⟩
      intro k'
      rw [(ih _ he).2.2.1 k', mine_erase hg hx.2]
      by_cases e : k = k'
      · subst e
        rw [if_neg hk, if_neg hk]
      · simp only [if_neg e]

end Bi
