import Verif.Bi.Node
import Verif.Bi.MsgLemmas

/-!
# Lemmas on `BiNode`
-/

namespace Bi

open Py

variable {σ A V : Type}

/-- The value a node reads under a reserved key: the entry addressed to it, else the plain entry, else `None`. -/
def want (nodeId : Option Str) (m : Msg V) (k : Str) : BVal V := ((mine nodeId m k).or (Dict.get m k)).getD .none

/-- The message after the two reserved keys have been read. -/
def afterTwo (m : Msg V) (ids : List (Str × Str)) : Msg V × List (Str × Str) :=
  let t := extractKey kTarget m ids
  (extractKey kMethod t.2.1 t.2.2).2

/-- What `parse` returns, given the method. -/
def parsedOf (meth : BMethod σ A V) (name target : BVal V) (e : Msg V × Msg V) : Parsed σ A V :=
  if kMsg ∈ meth.argKeys then
    { meth := meth, name := name, target := target, args := Dict.erase e.2 kMsg, msgArg := some e.1, kept := false }
  else { meth := meth, name := name, target := target, args := e.2, msgArg := none, kept := true }

theorem parse_eq (K : BKind σ A V) (dflt : BMethod σ A V) (s : St σ V) :
    parse K dflt s =
      match getMsgIdKeys K.nodeId s.cell with
      | .error e => (.error e, s)
      | .ok ids =>
        let t := extractKey kTarget s.cell ids
        let n := extractKey kMethod t.2.1 t.2.2
        match getMethod K n.1 dflt t.1 with
        | .error e => (.error e, { s with cell := n.2.1 })
        | .ok (meth, target) =>
          (.ok (parsedOf meth n.1 target (extractArgs meth.argKeys n.2.1 n.2.2)),
            { s with cell := (extractArgs meth.argKeys n.2.1 n.2.2).1 }) := by
  unfold parse
  simp only [M.bind_def, M.get_def, M.lift_def, M.modify_def]
  cases getMsgIdKeys K.nodeId s.cell with
  | error e => rfl
  | ok ids =>
    simp only
    generalize extractKey kTarget s.cell ids = t
    generalize extractKey kMethod t.2.1 t.2.2 = n
    cases getMethod K n.1 dflt t.1 with
    | error e => rfl
    | ok q =>
      obtain ⟨meth, target⟩ := q
      simp only [M.bind_def, M.modify_def, parsedOf]
      split <;> rfl

theorem not_isFor_plain {nodeId : Option Str} {k k' : Str} (h : ¬ HasSep k) : ¬ IsFor nodeId k k' := by
  rintro ⟨id, _, rfl⟩
  exact h ⟨id, k', rfl⟩

theorem noSep_kTarget : ¬ HasSep kTarget := by
  rcases key_cases kTarget with h | ⟨a, b, _, _, h, h'⟩
  · exact h.1
  · exfalso
    have : find kTarget = -1 := by decide
    rw [this] at h'
    have := Int.natCast_nonneg a.length
    omega

theorem noSep_kMethod : ¬ HasSep kMethod := by
  rcases key_cases kMethod with h | ⟨a, b, _, _, h, h'⟩
  · exact h.1
  · exfalso
    have : find kMethod = -1 := by decide
    rw [this] at h'
    have := Int.natCast_nonneg a.length
    omega

theorem isFor_addr {nodeId : Option Str} {key k : Str} (hg : GoodId nodeId) {k' : Str} (h : IsFor nodeId key k)
    (hk : k ≠ k') : ¬ IsFor nodeId key k' := fun h' => hk (IsFor.key hg h h')

/-- Everything `parse` reads. -/
theorem parse_spec {K : BKind σ A V} {dflt : BMethod σ A V} {s s' : St σ V} {p : Parsed σ A V}
    (hg : GoodId K.nodeId) (hm : Dict.Ok s.cell) (h : parse K dflt s = (.ok p, s')) :
    p.name = want K.nodeId s.cell kMethod ∧
      getMethod K p.name dflt (want K.nodeId s.cell kTarget) = .ok (p.meth, p.target) ∧
      (∀ key, Addressed K.nodeId key → Dict.get s'.cell key = none) ∧
      (∀ key, ¬ Addressed K.nodeId key → Dict.get s'.cell key = Dict.get s.cell key) ∧
      (∀ k, ¬ HasSep k → k ≠ kTarget → k ≠ kMethod → k ≠ kMsg → Dict.get p.args k =
        if k ∈ p.meth.argKeys then (mine K.nodeId s.cell k).or (Dict.get s.cell k) else none) ∧
      (∀ k, k = kTarget ∨ k = kMethod → Dict.get p.args k = if k ∈ p.meth.argKeys then Dict.get s.cell k else none) ∧
      Dict.get p.args kMsg = none ∧
      p.msgArg = (if kMsg ∈ p.meth.argKeys then some s'.cell else none) ∧
      p.kept = !decide (kMsg ∈ p.meth.argKeys) ∧
      Dict.Ok s'.cell ∧ s' = { s with cell := s'.cell } := by
  rw [parse_eq] at h
  cases hi : getMsgIdKeys K.nodeId s.cell with
  | error e => rw [hi] at h; cases h
  | ok ids =>
    rw [hi] at h
    simp only at h
    have I0 := Inv.start hg hm hi
    obtain ⟨t1, t2, t3, t4⟩ := extractKey_spec hg kTarget I0
    generalize extractKey kTarget s.cell ids = t at *
    obtain ⟨n1, n2, n3, n4⟩ := extractKey_spec hg kMethod t4
    generalize extractKey kMethod t.2.1 t.2.2 = n at *
    cases hq : getMethod K n.1 dflt t.1 with
    | error e => rw [hq] at h; cases h
    | ok q =>
      obtain ⟨meth, target⟩ := q
      rw [hq] at h
      simp only at h
      have hp := Except.ok.inj (Prod.mk.inj h).1
      have hs := (Prod.mk.inj h).2
      clear h
      have htm : kTarget ≠ kMethod := by decide
      -- the mine lookup of another key is not touched
      have m1 : ∀ k, k ≠ kTarget → mine K.nodeId t.2.1 k = mine K.nodeId s.cell k := by
        intro k hk
        unfold mine
        split
        · rename_i id hid
          refine t3 _ ?_
          exact isFor_addr hg ⟨id, hid, rfl⟩ hk
        · rfl
      have m2 : ∀ k, k ≠ kMethod → mine K.nodeId n.2.1 k = mine K.nodeId t.2.1 k := by
        intro k hk
        unfold mine
        split
        · rename_i id hid
          refine n3 _ ?_
          exact isFor_addr hg ⟨id, hid, rfl⟩ hk
        · rfl
      have m1' : mine K.nodeId t.2.1 kTarget = none := by
        unfold mine
        split
        · rename_i id hid
          exact t2 _ ⟨id, hid, rfl⟩
        · rfl
      have m2' : mine K.nodeId n.2.1 kMethod = none := by
        unfold mine
        split
        · rename_i id hid
          exact n2 _ ⟨id, hid, rfl⟩
        · rfl
      have p1 : ∀ k, ¬ HasSep k → Dict.get n.2.1 k = Dict.get s.cell k := by
        intro k hk
        rw [n3 _ (not_isFor_plain hk), t3 _ (not_isFor_plain hk)]
      have hname : n.1 = want K.nodeId s.cell kMethod := by
        rw [n1, want, m1 _ (Ne.symm htm), t3 _ (not_isFor_plain noSep_kMethod)]
      have htarget : t.1 = want K.nodeId s.cell kTarget := t1
      obtain ⟨a1, a2, a3, a4⟩ := argsLoop_spec hg meth.argKeys
        (n.2.1.filter fun e => decide (e.1 ∈ meth.argKeys)) n4
      have hx : extractArgs meth.argKeys n.2.1 n.2.2 =
        argsLoop meth.argKeys n.2.2 n.2.1 (n.2.1.filter fun e => decide (e.1 ∈ meth.argKeys)) := rfl
      rw [← hx] at a1 a2 a3 a4
      generalize extractArgs meth.argKeys n.2.1 n.2.2 = e at *
      have g : ∀ k, Dict.get e.2 k = if k ∈ meth.argKeys then (mine K.nodeId n.2.1 k).or (Dict.get n.2.1 k) else none := by
        intro k
        rw [a3 k, Dict.get_filter n.2.1 (fun k => decide (k ∈ meth.argKeys))]
        by_cases hk : k ∈ meth.argKeys
        · simp only [hk, decide_true, if_true]
        · simp [hk]
      have hcell : s'.cell = e.1 := by rw [← hs]
      have c1 : ∀ key, ¬ Addressed K.nodeId key → Dict.get e.1 key = Dict.get s.cell key := by
        intro key hk
        rw [a2 key hk, n3 _ (fun h => hk ⟨_, h⟩), t3 _ (fun h => hk ⟨_, h⟩)]
      have pm : p.meth = meth ∧ p.name = n.1 ∧ p.target = target := by
        subst hp
        unfold parsedOf
        split <;> exact ⟨rfl, rfl, rfl⟩
      have parg : ∀ k, k ≠ kMsg → Dict.get p.args k = Dict.get e.2 k := by
        subst hp
        intro k hk
        unfold parsedOf
        split
        · simp only [Dict.get_erase]
          rw [if_neg (Ne.symm hk)]
        · rfl
      refine ⟨?_, ?_, ?_, ?_, ?_, ?_, ?_, ?_, ?_, ?_, ?_⟩
      · rw [pm.2.1, hname]
      · rw [pm.1, pm.2.1, pm.2.2, ← htarget, hq]
      · rw [hcell]; exact a1
      · rw [hcell]; exact c1
      · intro k hk h1 h2 h3
        rw [parg k h3, g k, pm.1, m2 k h2, m1 k h1, p1 k hk]
      · rintro k (rfl | rfl)
        · rw [parg _ (by decide), g, pm.1, m2 _ htm, m1', Option.none_or, p1 _ noSep_kTarget]
        · rw [parg _ (by decide), g, pm.1, m2', Option.none_or, p1 _ noSep_kMethod]
      · subst hp
        unfold parsedOf
        split
        · simp only [Dict.get_erase, if_true]
        · rename_i hk
          simp only
          rw [g, if_neg hk]
      · subst hp
        rw [hcell]
        unfold parsedOf
        split <;> simp_all
      · subst hp
        unfold parsedOf
        split <;> simp_all
      · rw [hcell]; exact a4
      · rw [← hs]

/-- A message with a key of more than two parts is an error for every node. -/
theorem parse_bad {K : BKind σ A V} {dflt : BMethod σ A V} {s : St σ V} (h : ¬ WellAddressed s.cell) :
    parse K dflt s = (.error .valueError, s) := by
  rw [parse_eq]
  cases hi : getMsgIdKeys K.nodeId s.cell with
  | ok ids => exact absurd ((idKeysLoop_ok K.nodeId _ _).1 ⟨ids, hi⟩) h
  | error e =>
    simp only
    have : ∀ ks acc e, idKeysLoop K.nodeId ks acc = .error e → e = .valueError := by
      intro ks
      induction ks with
      | nil => intro acc e h; cases h
      | cons f r ih =>
        intro acc e h
        rw [idKeysLoop_cons] at h
        split at h
        · split at h
          · split at h
            · exact ih _ _ h
            · exact ih _ _ h
          · cases h; rfl
        · exact ih _ _ h
    rw [this _ _ _ hi]

end Bi
