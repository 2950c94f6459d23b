import Verif.Bi.ChunkProps

/-!
# When messages can be joined

The converse of C96: the messages of the chunks can be joined if and only if, for every key, the values are all arrays or
all of another type and can be added. Used for C201.
-/

namespace Bi

open Py

variable {V : Type}

/-- The values of one key can be joined to `v` (`none`: there are no values). -/
def JoinsTo (O : ValOps V) (vs : List (BVal V)) (v : Option (BVal V)) : Prop :=
  (vs = [] ∧ v = none) ∨
    (vs ≠ [] ∧ (∀ u ∈ vs, O.isArr u = true) ∧ v = some (O.concat vs)) ∨
    (∃ u us w, vs = u :: us ∧ (∀ u ∈ vs, O.isArr u = false) ∧ sumFrom O u us = some w ∧ v = some w)

theorem JoinsTo.det {O : ValOps V} {vs : List (BVal V)} {v v' : Option (BVal V)} (h : JoinsTo O vs v)
    (h' : JoinsTo O vs v') : v = v' := by
  rcases h with ⟨a, b⟩ | ⟨a, b, c⟩ | ⟨u, us, w, a, b, c, d⟩ <;> rcases h' with ⟨a', b'⟩ | ⟨a', b', c'⟩ | ⟨u', us', w', a', b', c', d'⟩
  · rw [b, b']
  · exact absurd a a'
  · rw [a] at a'; cases a'
  · exact absurd a' a
  · rw [c, c']
  · subst a'
    have h1 := b u' (by simp)
    rw [b' u' (by simp)] at h1
    cases h1
  · rw [a'] at a; cases a
  · subst a
    have h1 := b' u (by simp)
    rw [b u (by simp)] at h1
    cases h1
  · rw [a] at a'
    cases a'
    rw [c] at c'
    cases c'
    rw [d, d']

/-- The additions of the values that are no arrays succeed. -/
def Adds (O : ValOps V) (vs : List (BVal V)) : Prop :=
  match vs.filter fun v => !O.isArr v with
  | [] => True
  | v :: ws => ∃ w, sumFrom O v ws = some w

theorem sumFrom_prefix {O : ValOps V} {ws : List (BVal V)} : ∀ {vs : List (BVal V)} {v w : BVal V},
    sumFrom O v (vs ++ ws) = some w → ∃ w', sumFrom O v vs = some w' := by
  intro vs
  induction vs with
  | nil => intro v w _; exact ⟨v, rfl⟩
  | cons u vs ih =>
    intro v w h
    simp only [List.cons_append, sumFrom] at h ⊢
    cases hu : O.add v u with
    | none => rw [hu] at h; cases h
    | some z =>
      rw [hu] at h
      simp only [Option.bind_some] at h ⊢
      exact ih h

theorem Adds.prefix {O : ValOps V} {vs ws : List (BVal V)} (h : Adds O (vs ++ ws)) : Adds O vs := by
  unfold Adds at h ⊢
  rw [List.filter_append] at h
  cases hv : vs.filter fun v => !O.isArr v with
  | nil => trivial
  | cons v l =>
    rw [hv] at h
    simp only [List.cons_append] at h
    obtain ⟨w, hw⟩ := h
    exact sumFrom_prefix hw

theorem valuesOf_app (k : Str) (es fs : List (Str × BVal V)) :
    valuesOf k (es ++ fs) = valuesOf k es ++ valuesOf k fs := by
  simp [valuesOf]

theorem Holds.can {O : ValOps V} {es : List (Str × BVal V)} {c : Container V} (h : Holds O es c) {e : Str × BVal V}
    (ha : Adds O (valuesOf e.1 (es ++ [e]))) : ∃ c', addEntry O c e = .ok c' := by
  unfold addEntry
  by_cases hr : O.isArr e.2 = true
  · rw [if_pos hr]; exact ⟨_, rfl⟩
  · rw [if_neg hr]
    have hk := h.other e.1
    have hv : (valuesOf e.1 (es ++ [e])).filter (fun v => !O.isArr v) =
        (valuesOf e.1 es).filter (fun v => !O.isArr v) ++ [e.2] := by
      rw [valuesOf_append, if_pos rfl, List.filter_append]
      congr 1
      simp [hr]
    unfold Adds at ha
    rw [hv] at ha
    cases hg : Dict.get c.other e.1 with
    | none => exact ⟨_, rfl⟩
    | some v0 =>
      rw [hg] at hk
      generalize (valuesOf e.1 es).filter (fun v => !O.isArr v) = l at hk ha
      cases l with
      | nil => cases hk
      | cons v vs =>
        obtain ⟨w, h1, h2⟩ := hk
        cases h2
        simp only [List.cons_append] at ha
        obtain ⟨u, hu⟩ := ha
        have h3 := sumFrom_append O v v0 e.2 vs h1
        rw [hu] at h3
        simp only [← h3]
        exact ⟨_, rfl⟩

theorem addMessage_can {O : ValOps V} (m : Msg V) : ∀ {es : List (Str × BVal V)} {c : Container V}, Holds O es c →
    (∀ k, Adds O (valuesOf k (es ++ m))) → ∃ c', addMessage O c m = .ok c' := by
  induction m with
  | nil => intro es c _ _; exact ⟨c, rfl⟩
  | cons e m ih =>
    intro es c h ha
    have ha' : ∀ k, Adds O (valuesOf k ((es ++ [e]) ++ m)) := by
      intro k
      simpa using ha k
    obtain ⟨c1, h1⟩ := h.can (e := e) (by
      have := ha' e.1
      rw [valuesOf_app] at this
      exact this.prefix)
    obtain ⟨c2, h2⟩ := ih (h.step h1) ha'
    exact ⟨c2, by simp only [addMessage, h1, h2]⟩

theorem foldMsg_can {O : ValOps V} (ms : List (Option (Msg V))) : ∀ {es : List (Str × BVal V)} {c : Container V},
    Holds O es c → (∀ k, Adds O (valuesOf k (es ++ allEntries ms))) → ∃ c', foldMsg O ms c = .ok c' := by
  induction ms with
  | nil => intro es c _ _; exact ⟨c, rfl⟩
  | cons m ms ih =>
    intro es c h ha
    have ha' : ∀ k, Adds O (valuesOf k ((es ++ m.getD []) ++ allEntries ms)) := by
      intro k
      have := ha k
      simpa [allEntries] using this
    obtain ⟨c1, h1⟩ := addMessage_can (m.getD []) h (fun k => by
      have := ha' k
      rw [valuesOf_app] at this
      exact this.prefix)
    obtain ⟨c2, h2⟩ := ih (addMessage_holds _ h h1) ha'
    exact ⟨c2, by simp only [foldMsg, h1, h2]⟩

theorem holds_nil (O : ValOps V) : Holds O [] ({} : Container V) := by
  refine ⟨List.nodup_nil, fun k => ?_, fun k => ?_⟩
  · simp [valuesOf, Dict.get]
  · simp [valuesOf, Dict.get]

theorem getLoop_can {O : ValOps V} : ∀ (as : Dict Str (List (BVal V))) (m : Msg V), Dict.Ok as → Dict.Ok m →
    (∀ k, (Dict.get as k).isSome = true → Dict.get m k = none) → ∃ m', getLoop O as m = .ok m' ∧ Dict.Ok m' := by
  intro as
  induction as with
  | nil => intro m _ hm _; exact ⟨m, rfl, hm⟩
  | cons p as ih =>
    obtain ⟨a, vs⟩ := p
    intro m ho hm h
    have ho' : a ∉ Dict.keys as ∧ Dict.Ok as := List.nodup_cons.1 ho
    have h1 := h a (by simp [Dict.get])
    simp only [getLoop, h1]
    refine ih _ ho'.2 (Dict.set_ok _ _ _ hm) fun k hk => ?_
    have hne : a ≠ k := by
      rintro rfl
      rw [(Dict.get_none as a).2 ho'.1] at hk
      cases hk
    rw [Dict.get_set, if_neg hne]
    refine h k ?_
    simp only [Dict.get]
    rw [if_neg hne]
    exact hk

theorem addEntry_other {O : ValOps V} {c c' : Container V} {e : Str × BVal V} (h : addEntry O c e = .ok c')
    (hc : Dict.Ok c.other) : Dict.Ok c'.other := by
  unfold addEntry at h
  split at h
  · cases h; exact hc
  · split at h
    · cases h; exact Dict.set_ok _ _ _ hc
    · split at h
      · cases h; exact Dict.set_ok _ _ _ hc
      · cases h

theorem addMessage_other {O : ValOps V} (m : Msg V) : ∀ {c c' : Container V}, addMessage O c m = .ok c' →
    Dict.Ok c.other → Dict.Ok c'.other := by
  induction m with
  | nil => intro c c' h hc; cases h; exact hc
  | cons e m ih =>
    intro c c' h hc
    simp only [addMessage] at h
    cases h1 : addEntry O c e with
    | error er => rw [h1] at h; cases h
    | ok c1 =>
      rw [h1] at h
      exact ih h (addEntry_other h1 hc)

theorem foldMsg_other {O : ValOps V} (ms : List (Option (Msg V))) : ∀ {c c' : Container V}, foldMsg O ms c = .ok c' →
    Dict.Ok c.other → Dict.Ok c'.other := by
  induction ms with
  | nil => intro c c' h hc; cases h; exact hc
  | cons m ms ih =>
    intro c c' h hc
    simp only [foldMsg] at h
    cases h1 : addMessage O c (m.getD []) with
    | error er => rw [h1] at h; cases h
    | ok c1 =>
      rw [h1] at h
      exact ih h (addMessage_other _ h1 hc)

/-- **C96**, when it is possible: the messages of the chunks can be joined if and only if the values of every key can, and
then the joined message has the joined values. -/
theorem joined_iff [DecidableEq V] {O : ValOps V} (ms : List (Option (Msg V))) :
    (∃ c r, foldMsg O ms {} = .ok c ∧ getMessage O c = .ok r) ↔
      ∀ k, ∃ v, JoinsTo O (valuesOf k (allEntries ms)) v := by
  constructor
  · rintro ⟨c, r, h1, h2⟩ k
    refine ⟨Dict.get r k, ?_⟩
    have := joined_message h1 h2 k
    exact this
  · intro h
    have hadds : ∀ k, Adds O (valuesOf k ([] ++ allEntries ms)) := by
      intro k
      obtain ⟨v, hv⟩ := h k
      simp only [List.nil_append]
      unfold Adds
      rcases hv with ⟨a, _⟩ | ⟨_, b, _⟩ | ⟨u, us, w, a, b, c, _⟩
      · rw [a]; trivial
      · have : (valuesOf k (allEntries ms)).filter (fun v => !O.isArr v) = [] := by
          rw [List.filter_eq_nil_iff]
          intro u hu
          simp [b u hu]
        rw [this]; trivial
      · have : (valuesOf k (allEntries ms)).filter (fun v => !O.isArr v) = valuesOf k (allEntries ms) := by
          rw [List.filter_eq_self]
          intro u hu
          simp [b u hu]
        rw [this, a]
        exact ⟨w, c⟩
    obtain ⟨c, hc⟩ := foldMsg_can ms (holds_nil O) hadds
    have H := foldMsg_holds ms (holds_nil O) hc
    simp only [List.nil_append] at H
    obtain ⟨r, hr, _⟩ := getLoop_can (O := O) c.arrays c.other H.ok (foldMsg_other ms hc List.nodup_nil) (by
      intro k hk
      obtain ⟨v, hv⟩ := h k
      rw [H.arrays k] at hk
      have Ho := H.other k
      rcases hv with ⟨a, _⟩ | ⟨_, b, _⟩ | ⟨u, us, w, a, b, c, _⟩
      · rw [a] at hk; simp at hk
      · have : (valuesOf k (allEntries ms)).filter (fun v => !O.isArr v) = [] := by
          rw [List.filter_eq_nil_iff]
          intro u hu
          simp [b u hu]
        rw [this] at Ho
        exact Ho
      · have : (valuesOf k (allEntries ms)).filter O.isArr = [] := by
          rw [List.filter_eq_nil_iff]
          intro u hu
          simp [b u hu]
        rw [this] at hk
        simp at hk)
    exact ⟨c, r, hc, hr⟩

/-- The joined message is a dictionary. -/
theorem joined_dict {O : ValOps V} {ms : List (Option (Msg V))} {c : Container V} {r : Msg V}
    (h1 : foldMsg O ms {} = .ok c) (h2 : getMessage O c = .ok r) : Dict.Ok r := by
  have H := foldMsg_holds ms (holds_nil O) h1
  have hoth := foldMsg_other ms h1 List.nodup_nil
  by_cases hh : ∀ k, (Dict.get c.arrays k).isSome = true → Dict.get c.other k = none
  · obtain ⟨r', hr, hok⟩ := getLoop_can (O := O) c.arrays c.other H.ok hoth hh
    have h3 : getLoop O c.arrays c.other = .ok r := h2
    rw [hr] at h3
    cases h3
    exact hok
  · exfalso
    simp only [not_forall] at hh
    obtain ⟨k, hk, hn⟩ := hh
    have := getLoop_spec c.arrays H.ok h2 k
    cases hg : Dict.get c.arrays k with
    | none => rw [hg] at hk; cases hk
    | some vs =>
      rw [hg] at this
      exact hn this.1

/-- The values of a key depend only on what the messages say about it. -/
theorem valuesOf_dict (k : Str) (m : Msg V) (h : Dict.Ok m) : valuesOf k m = (Dict.get m k).toList := by
  induction m with
  | nil => rfl
  | cons e m ih =>
    obtain ⟨a, v⟩ := e
    have h' : a ∉ Dict.keys m ∧ Dict.Ok m := List.nodup_cons.1 h
    have e1 : valuesOf k ((a, v) :: m) = (if a = k then [v] else []) ++ valuesOf k m := by
      simp only [valuesOf, List.filterMap_cons]
      split <;> split <;> simp_all
    rw [e1, ih h'.2]
    simp only [Dict.get]
    by_cases hk : a = k
    · subst hk
      rw [if_pos rfl, if_pos rfl, (Dict.get_none m a).2 h'.1]
      rfl
    · rw [if_neg hk, if_neg hk]
      rfl

theorem allEntries_dicts (k : Str) (ms : List (Option (Msg V))) (h : ∀ m ∈ ms, Dict.Ok (m.getD [])) :
    valuesOf k (allEntries ms) = ms.filterMap fun m => Dict.get (m.getD []) k := by
  induction ms with
  | nil => rfl
  | cons m ms ih =>
    have e1 : allEntries (m :: ms) = m.getD [] ++ allEntries ms := by simp [allEntries]
    rw [e1, valuesOf_app, ih fun m' hm => h m' (by simp [hm]), valuesOf_dict k _ (h m (by simp))]
    rw [List.filterMap_cons]
    cases Dict.get (m.getD []) k <;> rfl

/-- Messages that say the same can be joined with the same result. -/
theorem joined_congr [DecidableEq V] {O : ValOps V} {ms ms' : List (Option (Msg V))} (h : ∀ m ∈ ms, Dict.Ok (m.getD []))
    (h' : ∀ m ∈ ms', Dict.Ok (m.getD []))
    (he : ∀ k, (ms.map fun m => Dict.get (m.getD []) k) = ms'.map fun m => Dict.get (m.getD []) k)
    {c : Container V} {r : Msg V} (h1 : foldMsg O ms {} = .ok c) (h2 : getMessage O c = .ok r) :
    ∃ c' r', foldMsg O ms' {} = .ok c' ∧ getMessage O c' = .ok r' ∧ ∀ k, Dict.get r' k = Dict.get r k := by
  have hv : ∀ k, valuesOf k (allEntries ms) = valuesOf k (allEntries ms') := by
    intro k
    rw [allEntries_dicts k ms h, allEntries_dicts k ms' h']
    have := congrArg (List.filterMap id) (he k)
    simpa [List.filterMap_map] using this
  have hj := (joined_iff (O := O) ms).1 ⟨c, r, h1, h2⟩
  obtain ⟨c', r', g1, g2⟩ := (joined_iff (O := O) ms').2 (fun k => by rw [← hv k]; exact hj k)
  refine ⟨c', r', g1, g2, fun k => ?_⟩
  have j1 : JoinsTo O _ (Dict.get r k) := joined_message h1 h2 k
  have j2 : JoinsTo O _ (Dict.get r' k) := joined_message g1 g2 k
  rw [hv k] at j1
  exact j2.det j1

/-- A single message, joined with nothing, says the same as before, if `concatenate` of one array is that array. -/
theorem joined_single [DecidableEq V] {O : ValOps V} (hO : ∀ v, O.isArr v = true → O.concat [v] = v) (m : Option (Msg V))
    (hm : Dict.Ok (m.getD [])) : ∃ c r, foldMsg O [m] {} = .ok c ∧ getMessage O c = .ok r ∧ Dict.Ok r ∧
      ∀ k, Dict.get r k = Dict.get (m.getD []) k := by
  have hv : ∀ k, valuesOf k (allEntries [m]) = (Dict.get (m.getD []) k).toList := by
    intro k
    rw [allEntries_dicts k [m] (by simpa using hm)]
    simp only [List.filterMap_cons, List.filterMap_nil]
    cases Dict.get (m.getD []) k <;> rfl
  have hj : ∀ k, JoinsTo O (valuesOf k (allEntries [m])) (Dict.get (m.getD []) k) := by
    intro k
    rw [hv k]
    cases Dict.get (m.getD []) k with
    | none => exact .inl ⟨rfl, rfl⟩
    | some v =>
      cases ha : O.isArr v with
      | true =>
        refine .inr (.inl ⟨by simp, by simpa using ha, ?_⟩)
        rw [show (some v).toList = [v] from rfl, hO v ha]
      | false => exact .inr (.inr ⟨v, [], v, rfl, by simpa using ha, rfl, rfl⟩)
  obtain ⟨c, r, g1, g2⟩ := (joined_iff (O := O) [m]).2 fun k => ⟨_, hj k⟩
  refine ⟨c, r, g1, g2, joined_dict g1 g2, fun k => ?_⟩
  have j : JoinsTo O _ (Dict.get r k) := joined_message g1 g2 k
  exact j.det (hj k)

/-- Both sides occur: a number and an array in two chunks can be joined, a number and an array with the same key cannot. -/
example : (∃ c r, foldMsg demoOps [some [(['a'], .int 1), (['b'], .other 5)], some [(['b'], .other 6), (['a'], .int 2)]] {}
      = .ok c ∧ getMessage demoOps c = .ok r) ∧
    ¬ ∃ v, JoinsTo demoOps (valuesOf ['a'] (allEntries [some [(['a'], .int 1)], some [(['a'], .other 2)]])) v := by
  refine ⟨⟨_, _, rfl, rfl⟩, ?_⟩
  have e : valuesOf ['a'] (allEntries [some [(['a'], .int 1)], some [(['a'], .other 2)]]) =
      [.int 1, (.other 2 : BVal Nat)] := rfl
  rw [e]
  rintro ⟨v, ⟨h, _⟩ | ⟨_, h, _⟩ | ⟨u, us, w, _, h, _⟩⟩
  · cases h
  · exact absurd (h (.int 1) (by simp)) (by decide)
  · exact absurd (h (.other 2) (by simp)) (by decide)

end Bi
