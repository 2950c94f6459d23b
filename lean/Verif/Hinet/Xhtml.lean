import Mathlib.Data.List.Basic
import Mathlib.Data.List.Infix
import Mathlib.Tactic.Linarith

/-!
# `HiNetXHTMLVisitor` (`mdp/hinet/htmlvisitor.py:287-302`), C371

What the visitor for HTML writes is a parameter: a text, and whether it ended without an exception. -/

namespace Mdp.Xhtml

abbrev Text := List Char

/-! ## Model -/

/-- `s.replace(old, new)` (htmlvisitor.py:300-301): occurrences from the left; the first argument is the number of characters of the last
occurrence still to be passed over. -/
def replaceFrom (old new : Text) : Nat → Text → Text
  | _, [] => []
  | k + 1, _ :: s => replaceFrom old new k s
  | 0, c :: s => if old.isPrefixOf (c :: s) then new ++ replaceFrom old new (old.length - 1) s else c :: replaceFrom old new 0 s

/-- htmlvisitor.py:300 -/
def replaceBr (s : Text) : Text := replaceFrom ['<', 'b', 'r', '>'] ['<', 'b', 'r', ' ', '/', '>'] 0 s

/-- htmlvisitor.py:301 -/
def replaceNbsp (s : Text) : Text := replaceFrom ['&', 'n', 'b', 's', 'p', ';'] ['&', '#', '1', '6', '0', ';'] 0 s

/-- htmlvisitor.py:299-301 -/
def xhtml (s : Text) : Text := replaceNbsp (replaceBr s)

/-- The visitor: the file given to it, and what is in the buffer that has taken its place, if any. -/
structure St where
  out : Text
  lost : Option Text
deriving DecidableEq

/-- `convert_flow` (htmlvisitor.py:290-302). Through `NewlineWriteFile` (24-42) the text gets a newline at its end. With an exception
the statement that puts the file back (297) is not reached. -/
def convert (st : St) (r : Text × Bool) : St :=
  if r.2 then
    match st.lost with
    | none => { st with out := st.out ++ (xhtml r.1 ++ ['\n']) }
    | some t => { st with lost := some (t ++ (xhtml r.1 ++ ['\n'])) }
  else { st with lost := some r.1 }

/-! ## Proof -/

section
variable {old new : Text}

theorem replaceFrom_skip (k : Nat) (s : Text) : replaceFrom old new k s = replaceFrom old new 0 (s.drop k) := by
  induction s generalizing k with
  | nil => cases k <;> simp [replaceFrom]
  | cons c s ih =>
    cases k with
    | zero => rfl
    | succ k => simp only [replaceFrom, List.drop_succ_cons]; exact ih k

theorem replace_old (h : old ≠ []) (b : Text) : replaceFrom old new 0 (old ++ b) = new ++ replaceFrom old new 0 b := by
  cases old with
  | nil => exact absurd rfl h
  | cons o os =>
    rw [List.cons_append, replaceFrom, if_pos, replaceFrom_skip]
    · simp
    · simp

theorem replace_cons {c : Char} {s : Text} (h : ¬ old <+: c :: s) : replaceFrom old new 0 (c :: s) = c :: replaceFrom old new 0 s := by
  rw [replaceFrom, if_neg]
  simpa using h

/-- Nothing to replace, nothing replaced. -/
theorem replace_none (s : Text) (h : ¬ old <:+: s) : replaceFrom old new 0 s = s := by
  induction s with
  | nil => rfl
  | cons c s ih =>
    rw [List.infix_cons_iff, not_or] at h
    rw [replace_cons h.1, ih h.2]

/-- No occurrence goes across a character that can only be its first one. -/
theorem replace_append (h : old ≠ []) (a : Text) (c : Char) (t : Text) (hc : c ∉ old.tail) :
    replaceFrom old new 0 (a ++ c :: t) = replaceFrom old new 0 a ++ replaceFrom old new 0 (c :: t) := by
  induction hn : a.length using Nat.strong_induction_on generalizing a with
  | _ n ih =>
    cases a with
    | nil => rfl
    | cons x a =>
      by_cases hp : old <+: (x :: a) ++ c :: t
      · have hle : old.length ≤ (x :: a).length := by
          by_contra hlt
          rw [not_le] at hlt
          obtain ⟨u, hu⟩ := hp
          have h1 : old[(x :: a).length]? = some c := by
            have : (old ++ u)[(x :: a).length]? = some c := by
              rw [hu, List.getElem?_append_right (le_refl _)]; simp
            rwa [List.getElem?_append_left hlt] at this
          apply hc
          cases old with
          | nil => simp at h1
          | cons o os =>
            rw [List.length_cons, List.getElem?_cons_succ] at h1
            exact List.mem_of_getElem? h1
        obtain ⟨v, hv⟩ := List.prefix_of_prefix_length_le hp (List.prefix_append _ _) hle
        rw [← hv, List.append_assoc, replace_old h, replace_old h, List.append_assoc]
        congr 1
        refine ih v.length ?_ v rfl
        have h2 := congrArg List.length hv
        have h3 : 0 < old.length := List.length_pos_iff.2 h
        rw [List.length_append] at h2
        omega
      · have hp2 : ¬ old <+: x :: a := fun hq => hp (hq.trans (List.prefix_append _ _))
        rw [List.cons_append] at hp ⊢
        rw [replace_cons hp, replace_cons hp2, List.cons_append]
        congr 1
        exact ih a.length (by rw [← hn]; simp) a rfl

/-- A text without the first character of the replacement that the result begins with was there before. -/
theorem prefix_of_replace {o : Char} {ns : Text} (hn : new = o :: ns) (w s : Text) (ho : o ∉ w) (h : w <+: replaceFrom old new 0 s) : w <+: s := by
  induction w generalizing s with
  | nil => exact List.nil_prefix
  | cons c w ih =>
    rw [List.mem_cons, not_or] at ho
    cases s with
    | nil => simpa [replaceFrom] using h
    | cons x s =>
      by_cases hp : old <+: x :: s
      · rw [replaceFrom, if_pos (by simpa using hp), hn, List.cons_append, List.cons_prefix_cons] at h
        exact absurd h.1.symm ho.1
      · rw [replace_cons hp, List.cons_prefix_cons] at h
        exact List.cons_prefix_cons.2 ⟨h.1, ih s ho.2 h.2⟩

/-- Texts that do not occur in the result. -/
theorem not_infix_replace {o : Char} {ns : Text} (hn : new = o :: ns) (hold : old ≠ []) (c : Char) (w : Text) (ho : o ∉ w)
    (hnew : ∀ r : Text, c :: w <:+: new ++ r → c :: w <:+: r) (s : Text)
    (hs : c :: w = old ∨ ¬ c :: w <:+: s) : ¬ c :: w <:+: replaceFrom old new 0 s := by
  induction hl : s.length using Nat.strong_induction_on generalizing s with
  | _ n ih =>
    cases s with
    | nil => simp [replaceFrom]
    | cons x s =>
      by_cases hp : old <+: x :: s
      · obtain ⟨v, hv⟩ := hp
        rw [← hv, replace_old hold]
        intro h
        have h3 : 0 < old.length := List.length_pos_iff.2 hold
        have h2 := congrArg List.length hv
        rw [List.length_append] at h2
        refine ih v.length (by omega) v ?_ rfl (hnew _ h)
        refine hs.imp_right fun hs' hi => hs' ?_
        rw [← hv]
        exact hi.trans (List.suffix_append old v).isInfix
      · rw [replace_cons hp, List.infix_cons_iff]
        rintro (h | h)
        · rw [List.cons_prefix_cons] at h
          have hpre : c :: w <+: x :: s := List.cons_prefix_cons.2 ⟨h.1, prefix_of_replace hn w s ho h.2⟩
          rcases hs with hs | hs
          · exact hp (hs ▸ hpre)
          · exact hs hpre.isInfix
        · refine ih s.length (by rw [← hl]; simp) s ?_ rfl h
          exact hs.imp_right fun hs' hi => hs' (hi.trans (List.suffix_cons x s).isInfix)

end

/-- C371. The text becomes one without `<br>` and `&nbsp;`. -/
theorem xhtml_none_left (s : Text) : ¬ "<br>".toList <:+: xhtml s ∧ ¬ "&nbsp;".toList <:+: xhtml s := by
  have h1 : ¬ ['<', 'b', 'r', '>'] <:+: replaceBr s := by
    refine not_infix_replace (ns := ['b', 'r', ' ', '/', '>']) rfl (by simp) '<' ['b', 'r', '>'] (by decide) ?_ s (.inl rfl)
    intro r h
    simpa [List.infix_cons_iff, List.cons_prefix_cons] using h
  constructor
  · refine not_infix_replace (ns := ['#', '1', '6', '0', ';']) rfl (by simp) '<' ['b', 'r', '>'] (by decide) ?_ _ (.inr h1)
    intro r h
    simpa [List.infix_cons_iff, List.cons_prefix_cons] using h
  · refine not_infix_replace (ns := ['#', '1', '6', '0', ';']) rfl (by simp) '&' ['n', 'b', 's', 'p', ';'] (by decide) ?_ _ (.inl rfl)
    intro r h
    simpa [List.infix_cons_iff, List.cons_prefix_cons] using h

theorem nbsp_br (t : Text) : replaceNbsp (['<', 'b', 'r', ' ', '/', '>'] ++ t) = ['<', 'b', 'r', ' ', '/', '>'] ++ replaceNbsp t := by
  simp only [replaceNbsp, List.cons_append, List.nil_append]
  rw [replace_cons (by simp), replace_cons (by simp), replace_cons (by simp), replace_cons (by simp), replace_cons (by simp),
    replace_cons (by simp)]

theorem br_nbsp (t : Text) : replaceBr (['&', 'n', 'b', 's', 'p', ';'] ++ t) = ['&', 'n', 'b', 's', 'p', ';'] ++ replaceBr t := by
  simp only [replaceBr, List.cons_append, List.nil_append]
  rw [replace_cons (by simp), replace_cons (by simp), replace_cons (by simp), replace_cons (by simp), replace_cons (by simp),
    replace_cons (by simp)]

/-- C371. Each `<br>` becomes `<br />`, each `&nbsp;` becomes `&#160;`, and everything else remains. -/
theorem xhtml_replaces (a b : Text) :
    xhtml (a ++ "<br>".toList ++ b) = xhtml a ++ "<br />".toList ++ xhtml b ∧
    xhtml (a ++ "&nbsp;".toList ++ b) = xhtml a ++ "&#160;".toList ++ xhtml b ∧
    (¬ "<br>".toList <:+: a → ¬ "&nbsp;".toList <:+: a → xhtml a = a) := by
  refine ⟨?_, ?_, fun h1 h2 => ?_⟩
  · have e : replaceBr (a ++ ['<', 'b', 'r', '>'] ++ b) = replaceBr a ++ (['<', 'b', 'r', ' ', '/', '>'] ++ replaceBr b) := by
      rw [List.append_assoc]
      exact (replace_append (by simp) a '<' (['b', 'r', '>'] ++ b) (by decide)).trans (congrArg _ (replace_old (by simp) b))
    show replaceNbsp (replaceBr (a ++ ['<', 'b', 'r', '>'] ++ b)) = replaceNbsp (replaceBr a) ++ ['<', 'b', 'r', ' ', '/', '>'] ++ replaceNbsp (replaceBr b)
    rw [e, List.append_assoc, ← nbsp_br]
    exact replace_append (by simp) _ '<' _ (by decide)
  · have e : replaceBr (a ++ ['&', 'n', 'b', 's', 'p', ';'] ++ b) = replaceBr a ++ (['&', 'n', 'b', 's', 'p', ';'] ++ replaceBr b) := by
      rw [List.append_assoc, ← br_nbsp]
      exact replace_append (by simp) a '&' (['n', 'b', 's', 'p', ';'] ++ b) (by decide)
    show replaceNbsp (replaceBr (a ++ ['&', 'n', 'b', 's', 'p', ';'] ++ b)) =
      replaceNbsp (replaceBr a) ++ ['&', '#', '1', '6', '0', ';'] ++ replaceNbsp (replaceBr b)
    rw [e, List.append_assoc]
    exact (replace_append (by simp) _ '&' (['n', 'b', 's', 'p', ';'] ++ replaceBr b) (by decide)).trans (congrArg _ (replace_old (by simp) _))
  · have e : replaceBr a = a := replace_none a h1
    show replaceNbsp (replaceBr a) = a
    rw [e]
    exact replace_none a h2

/-- C371. Calls without exceptions write the pictures one after the other, each with a newline. -/
theorem xhtml_calls (st : St) (hl : st.lost = none) (ts : List Text) :
    (ts.map fun t => (t, true)).foldl convert st = ⟨st.out ++ (ts.map fun t => xhtml t ++ ['\n']).flatten, none⟩ := by
  induction ts generalizing st with
  | nil => obtain ⟨o, l⟩ := st; simp at hl; simp [hl]
  | cons t ts ih =>
    simp only [List.map_cons, List.foldl_cons]
    rw [ih]
    · simp [convert, hl]
    · simp [convert, hl]

/-- C371. False after an exception: whatever is converted later with this visitor, the file remains as it is. -/
theorem xhtml_exception_violation (st : St) (t : Text) (calls : List (Text × Bool)) :
    (calls.foldl convert (convert st (t, false))).out = st.out := by
  have h : ∀ (calls : List (Text × Bool)) (s : St), s.lost.isSome = true → (calls.foldl convert s).out = s.out := by
    intro calls
    induction calls with
    | nil => intro s _; rfl
    | cons r calls ih =>
      intro s hs
      obtain ⟨o, l⟩ := s
      cases l with
      | none => simp at hs
      | some l =>
        rw [List.foldl_cons, ih]
        · simp only [convert]; split <;> rfl
        · simp only [convert]; split <;> rfl
  rw [h _ _ rfl]
  rfl

example : xhtml "a<br<br>&nbsp;&amp;<br>".toList = "a<br<br />&#160;&amp;<br />".toList := by decide +kernel

example : [("a<br>".toList, true), ("b".toList, true)].foldl convert ⟨[], none⟩ = ⟨"a<br />\nb\n".toList, none⟩ :=
  xhtml_calls ⟨[], none⟩ rfl ["a<br>".toList, "b".toList]

example : [("a<br>".toList, true), ("b".toList, false), ("c".toList, true)].foldl convert ⟨[], none⟩ =
    ⟨"a<br />\n".toList, some "bc\n".toList⟩ := by decide +kernel

end Mdp.Xhtml
