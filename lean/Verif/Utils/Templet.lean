import Mathlib.Data.List.Basic
import Mathlib.Data.List.TakeWhile

/-! # String templates (C309, C310) -/

namespace Mdp.Templet

/-! ## Model -/

abbrev Str := List Char

/-- The characters of a Python identifier in the pattern (which ignores the case). -/
def identStart (c : Char) : Bool :=
  c == '_' || (97 ≤ c.toNat && c.toNat ≤ 122) || (65 ≤ c.toNat && c.toNat ≤ 90)
def identChar (c : Char) : Bool := identStart c || (48 ≤ c.toNat && c.toNat ≤ 57)

/-- White space without the newline, the ASCII part. -/
def hspace (c : Char) : Bool := c == ' ' || c == '\t' || c == '\r' || c == Char.ofNat 11 || c == Char.ofNat 12

/-- What a template consists of. -/
inductive Piece where
  /-- constant text -/
  | text (t : Str)
  /-- `$$` -/
  | dollar
  /-- `$` at the end of a line -/
  | cont
  /-- `$name` and `${expression}` -/
  | emit (e : Str)
  /-- `${{code}}` -/
  | code (c : Str)
  /-- `$<name>` -/
  | call (x : Str)
deriving DecidableEq

/-- The shortest text before `}}`, and the text behind it. -/
def findClose : Str → Option (Str × Str)
  | '}' :: '}' :: r => some ([], r)
  | c :: r => (findClose r).map fun p => (c :: p.1, p.2)
  | [] => none

/-- The white space up to the end of the line, with the newline, is skipped; nothing else. -/
def eat (s : Str) : Str :=
  match s.dropWhile hspace with
  | '\n' :: r => r
  | _ => s

/-- What follows a `$`: the directive and the rest of the template; `none`: no directive matches, so that the group
of the pattern is empty.
/repo/mdp/utils/templet.py 142-150. -/
def directive (s : Str) : Option (Piece × Str) :=
  match s with
  | '$' :: r => some (.dollar, r)
  | '{' :: '{' :: r => (findClose r).map fun p => (.code p.1, eat p.2)
  | '{' :: r =>
    match r.dropWhile (· != '}') with
    | _ :: q => some (.emit (r.takeWhile (· != '}')), q)
    | [] => none
  | '<' :: r =>
    match r with
    | c :: _ =>
      if identStart c then
        match r.dropWhile identChar with
        | '>' :: q => some (.call (r.takeWhile identChar), eat q)
        | _ => none
      else none
    | [] => none
  | _ =>
    match s.dropWhile hspace with
    | '\n' :: r => some (.cont, r)
    | _ =>
      match s with
      | c :: _ => if identStart c then some (.emit (s.takeWhile identChar), s.dropWhile identChar) else none
      | [] => none

/-- The loop of `build`: the pieces, or `none` for the SyntaxError.  `calls` tells whether sub-templates are
supported (`callpat` is given).  Each round consumes a character, the length of the template bounds the rounds.
/repo/mdp/utils/templet.py 168-190. -/
def build (calls : Bool) : Nat → Str → Option (List Piece)
  | 0, _ => some []
  | _, [] => some []
  | n + 1, c :: r =>
    if c = '$' then
      match directive r with
      | none => none
      | some (.call x, q) => if calls then (build calls n q).map (Piece.call x :: ·) else none
      | some (p, q) => (build calls n q).map (p :: ·)
    else
      (build calls n ((c :: r).dropWhile (· != '$'))).map (Piece.text ((c :: r).takeWhile (· != '$')) :: ·)

def compile (calls : Bool) (s : Str) : Option (List Piece) := build calls s.length s

/-- The output of a template: `ev` gives the text of an expression, `ex` the output of a piece of code, `sub` that of
a sub-template.
/repo/mdp/utils/templet.py 198-243. -/
def output (ev ex sub : Str → Str) : List Piece → Str
  | [] => []
  | .text t :: ps => t ++ output ev ex sub ps
  | .dollar :: ps => '$' :: output ev ex sub ps
  | .cont :: ps => output ev ex sub ps
  | .emit e :: ps => ev e ++ output ev ex sub ps
  | .code c :: ps => ex c ++ output ev ex sub ps
  | .call x :: ps => sub x ++ output ev ex sub ps

/-! ## Specification -/

/-- How a piece is written in a template; an expression in braces. -/
def render : Piece → Str
  | .text t => t
  | .dollar => ['$', '$']
  | .cont => ['$', '\n']
  | .emit e => '$' :: '{' :: e ++ ['}']
  | .code c => '$' :: '{' :: '{' :: c ++ ['}', '}']
  | .call x => '$' :: '<' :: x ++ ['>']

/-- An identifier. -/
def Ident (x : Str) : Prop := (∃ c r, x = c :: r ∧ identStart c = true) ∧ x.all identChar = true

/-- `}}` does not occur before the end of `c}}`. -/
def NoClose (c : Str) : Prop := ∀ a b, c ++ ['}'] ≠ a ++ '}' :: '}' :: b

/-- The text does not begin with an empty rest of a line. -/
def NoBlankLine (s : Str) : Prop := ∀ w r, s = w ++ '\n' :: r → ∃ c ∈ w, hspace c = false

/-- The conditions under which a piece, followed by the text `rest`, can be written. -/
def Writable : Piece → List Piece → Prop
  | .text t, ps => t ≠ [] ∧ '$' ∉ t ∧ ∀ t' ps', ps ≠ .text t' :: ps'
  | .dollar, _ => True
  | .cont, _ => True
  | .emit e, _ => '}' ∉ e ∧ e.head? ≠ some '{'
  | .code c, ps => NoClose c ∧ NoBlankLine (ps.flatMap render)
  | .call x, ps => Ident x ∧ NoBlankLine (ps.flatMap render)

def WF : List Piece → Prop
  | [] => True
  | p :: ps => Writable p ps ∧ WF ps

/-- Every `$` of a text doubled. -/
def escape (s : Str) : Str := s.flatMap fun c => if c = '$' then ['$', '$'] else [c]

/-! ## Lemmas -/

theorem findClose_spec (c r : Str) (h : NoClose c) : findClose (c ++ '}' :: '}' :: r) = some (c, r) := by
  induction c with
  | nil => simp [findClose]
  | cons x c ih =>
    have hc : NoClose c := by
      intro a b hab
      exact h (x :: a) b (by simp [hab])
    have := ih hc
    rw [List.cons_append]
    have hne : ¬ (x = '}' ∧ ∃ q, c ++ '}' :: '}' :: r = '}' :: q) := by
      rintro ⟨rfl, q, hq⟩
      cases c with
      | nil => exact h [] [] (by simp)
      | cons y c =>
        simp only [List.cons_append, List.cons.injEq] at hq
        rw [hq.1] at h
        exact h [] (c ++ ['}']) (by simp)
    rw [findClose]
    · rw [this]; rfl
    · intro q hx hq
      exact hne ⟨hx, q, hq⟩

theorem dropWhile_append_of_all {p : Char → Bool} {l : Str} (h : l.all p = true) (m : Str) :
    (l ++ m).dropWhile p = m.dropWhile p ∧ (l ++ m).takeWhile p = l ++ m.takeWhile p := by
  induction l with
  | nil => simp
  | cons x l ih =>
    simp only [List.all_cons, Bool.and_eq_true] at h
    have := ih h.2
    simp [List.dropWhile_cons, List.takeWhile_cons, h.1, this]

/-- The rest of a line that is blank behind code is left out with its newline. -/
theorem code_blank_line (c b r : Str) (hc : NoClose c) (hb : b.all hspace = true) :
    directive ('{' :: '{' :: (c ++ '}' :: '}' :: (b ++ '\n' :: r))) = some (.code c, r) := by
  have h : ∀ b : Str, b.all hspace = true → (b ++ '\n' :: r).dropWhile hspace = '\n' :: r := by
    intro b
    induction b with
    | nil => intro _; rfl
    | cons x b ih =>
      intro hx
      simp only [List.all_cons, Bool.and_eq_true] at hx
      simp [hx.1, ih hx.2]
  have he : eat (b ++ '\n' :: r) = r := by rw [eat, h b hb]; rfl
  simp only [directive, findClose_spec c _ hc, Option.map_some, he]

example : directive "{{x = 1}}  \nabc".toList = some (.code "x = 1".toList, "abc".toList) := by decide +kernel

theorem eat_id {s : Str} (h : NoBlankLine s) : eat s = s := by
  unfold eat
  split
  · rename_i r hr
    exfalso
    have h1 := List.takeWhile_append_dropWhile (p := hspace) (l := s)
    rw [hr] at h1
    obtain ⟨c, hc, hc'⟩ := h _ _ h1.symm
    have := List.mem_takeWhile_imp hc
    rw [hc'] at this
    cases this
  · rfl

theorem dollar_free {t : Str} (h : '$' ∉ t) : t.all (· != '$') = true := by
  rw [List.all_eq_true]
  intro c hc
  simp only [bne_iff_ne, ne_eq]
  rintro rfl
  exact h hc

theorem render_ne_nil {p : Piece} {ps : List Piece} (h : Writable p ps) : render p ≠ [] := by
  cases p with
  | text t => exact h.1
  | _ => simp [render]

/-- The directive that is written is the one that is read. -/
theorem directive_render {p : Piece} {ps : List Piece} (h : Writable p ps) (ht : ∀ t, p ≠ .text t) :
    ∃ r, render p ++ ps.flatMap render = '$' :: r ∧ directive r = some (p, ps.flatMap render) := by
  generalize hR : ps.flatMap render = R
  cases p with
  | text t => exact absurd rfl (ht t)
  | dollar => exact ⟨_, rfl, rfl⟩
  | cont =>
    refine ⟨'\n' :: R, rfl, ?_⟩
    simp [directive, hspace]
  | emit e =>
    obtain ⟨h1, h2⟩ := h
    refine ⟨'{' :: (e ++ '}' :: R), by simp [render], ?_⟩
    have hall : e.all (· != '}') = true := by
      rw [List.all_eq_true]
      intro c hc
      simp only [bne_iff_ne, ne_eq]
      rintro rfl
      exact h1 hc
    obtain ⟨d1, d2⟩ := dropWhile_append_of_all hall ('}' :: R)
    have hd : ((('}' :: R : Str)).dropWhile (· != '}')) = '}' :: R := by simp [List.dropWhile_cons]
    have hk : ((('}' :: R : Str)).takeWhile (· != '}')) = [] := by simp [List.takeWhile_cons]
    rw [hd] at d1
    rw [hk, List.append_nil] at d2
    have hq : ∀ q, e ++ '}' :: R = '{' :: q → False := by
      intro q hq
      cases e with
      | nil => simp at hq
      | cons y e =>
        simp only [List.cons_append, List.cons.injEq] at hq
        exact h2 (by simp [hq.1])
    unfold directive
    split
    · rename_i heq; simp at heq
    · rename_i heq
      simp only [List.cons.injEq, true_and] at heq
      exact (hq _ heq).elim
    · rename_i heq
      simp only [List.cons.injEq, true_and] at heq
      subst heq
      simp only [d1, d2]
    · rename_i heq; simp at heq
    · rename_i hn _
      exact absurd rfl (hn _)
  | code c =>
    obtain ⟨h1, h2⟩ := h
    rw [hR] at h2
    refine ⟨'{' :: '{' :: (c ++ '}' :: '}' :: R), by simp [render], ?_⟩
    simp only [directive, findClose_spec c R h1, Option.map_some, eat_id h2]
  | call x =>
    obtain ⟨⟨⟨c, r, rfl, hc⟩, hall⟩, h2⟩ := h
    rw [hR] at h2
    refine ⟨'<' :: (c :: r ++ '>' :: R), by simp [render], ?_⟩
    obtain ⟨d1, d2⟩ := dropWhile_append_of_all hall ('>' :: R)
    have hd : ((('>' :: R : Str)).dropWhile identChar) = '>' :: R := by
      rw [List.dropWhile_cons_of_neg (by decide)]
    have hk : ((('>' :: R : Str)).takeWhile identChar) = [] := by
      rw [List.takeWhile_cons_of_neg (by decide)]
    rw [hd] at d1
    rw [hk, List.append_nil] at d2
    simp only [directive, List.cons_append]
    simp only [List.cons_append] at d1 d2
    rw [if_pos hc, d1]
    simp only [d2, eat_id h2]

theorem text_split {t : Str} {ps : List Piece} (h : Writable (.text t) ps) (hw : WF ps) :
    (t ++ ps.flatMap render).takeWhile (· != '$') = t ∧
      (t ++ ps.flatMap render).dropWhile (· != '$') = ps.flatMap render := by
  obtain ⟨-, h2, h3⟩ := h
  obtain ⟨d1, d2⟩ := dropWhile_append_of_all (dollar_free h2) (ps.flatMap render)
  rw [d1, d2]
  cases ps with
  | nil => simp
  | cons p ps =>
    obtain ⟨r, hr, -⟩ := directive_render hw.1 (fun t e => h3 t ps (by rw [e]))
    rw [List.flatMap_cons, hr]
    simp

/-- C309: a template is read as it was written: for every well-formed list of pieces the compiled template consists
of exactly these pieces (with sub-templates only where they are supported). -/
theorem compile_render (calls : Bool) (ps : List Piece) (h : WF ps)
    (hc : calls = true ∨ ∀ x, Piece.call x ∉ ps) : compile calls (ps.flatMap render) = some ps := by
  unfold compile
  have key : ∀ n, (ps.flatMap render).length ≤ n → build calls n (ps.flatMap render) = some ps := by
    induction ps with
    | nil => intro n _; cases n <;> rfl
    | cons p ps ih =>
      intro n hn
      have ih' := ih h.2 (hc.imp id fun hx x hm => hx x (by simp [hm]))
      have hne := List.length_pos_of_ne_nil (render_ne_nil h.1)
      rw [List.flatMap_cons, List.length_append] at hn
      rw [List.flatMap_cons]
      cases n with
      | zero => omega
      | succ n =>
        by_cases ht : ∃ t, p = .text t
        · obtain ⟨t, rfl⟩ := ht
          obtain ⟨s1, s2⟩ := text_split h.1 h.2
          simp only [render] at hn ⊢ hne
          cases t with
          | nil => exact absurd rfl h.1.1
          | cons c t =>
            have hcd : c ≠ '$' := by
              rintro rfl
              exact h.1.2.1 (by simp)
            rw [List.cons_append] at s1 s2 ⊢
            rw [build, if_neg hcd, s1, s2, ih' n (by rw [List.length_cons] at hn; omega)]
            rfl
        · obtain ⟨r, hr, hd⟩ := directive_render h.1 (fun t e => ht ⟨t, e⟩)
          rw [hr, build, if_pos rfl, hd]
          have hb := ih' n (by omega)
          cases p with
          | call x =>
            rcases hc with rfl | hc
            · simp only [if_true, hb, Option.map_some]
            · exact absurd (by simp) (hc x)
          | text t => exact absurd ⟨t, rfl⟩ ht
          | _ => simp only [hb, Option.map_some]
  exact key _ (Nat.le_refl _)

/-- C309: a simple name is read as the longest identifier. -/
theorem directive_name (x rest : Str) (hx : Ident x) (hr : ∀ c r, rest = c :: r → identChar c = false) :
    directive (x ++ rest) = some (.emit x, rest) := by
  obtain ⟨⟨c, r, rfl, hc⟩, hall⟩ := hx
  obtain ⟨d1, d2⟩ := dropWhile_append_of_all hall rest
  have e1 : rest.dropWhile identChar = rest ∧ rest.takeWhile identChar = [] := by
    cases rest with
    | nil => simp
    | cons y q => simp [List.dropWhile_cons, List.takeWhile_cons, hr y q rfl]
  rw [e1.1] at d1
  rw [e1.2, List.append_nil] at d2
  have n1 : c ≠ '$' := by rintro rfl; revert hc; decide
  have n2 : c ≠ '{' := by rintro rfl; revert hc; decide
  have n3 : c ≠ '<' := by rintro rfl; revert hc; decide
  have n4 : c ≠ '\n' := by rintro rfl; revert hc; decide
  have n5 : hspace c = false := by
    cases hs : hspace c with
    | false => rfl
    | true =>
      unfold hspace at hs
      simp only [Bool.or_eq_true, beq_iff_eq] at hs
      rcases hs with (((rfl | rfl) | rfl) | rfl) | rfl <;> revert hc <;> decide
  simp only [List.cons_append] at d1 d2 ⊢
  unfold directive
  split
  · rename_i heq; simp only [List.cons.injEq] at heq; exact absurd heq.1 n1
  · rename_i heq; simp only [List.cons.injEq] at heq; exact absurd heq.1 n2
  · rename_i heq; simp only [List.cons.injEq] at heq; exact absurd heq.1 n2
  · rename_i heq; simp only [List.cons.injEq] at heq; exact absurd heq.1 n3
  · rw [List.dropWhile_cons_of_neg (by simp [n5])]
    split
    · rename_i heq; simp only [List.cons.injEq] at heq; exact absurd heq.1 n4
    · simp only [if_pos hc, d1, d2]

/-- The pieces of an escaped text. -/
def pieces : Str → List Piece
  | [] => []
  | c :: s =>
    if c = '$' then .dollar :: pieces s
    else match pieces s with
      | .text t :: ps => .text (c :: t) :: ps
      | ps => .text [c] :: ps

theorem pieces_spec (s : Str) (ev ex sub : Str → Str) :
    WF (pieces s) ∧ (pieces s).flatMap render = escape s ∧ output ev ex sub (pieces s) = s ∧
      ∀ x, Piece.call x ∉ pieces s := by
  induction s with
  | nil => simp [pieces, WF, escape, output]
  | cons c s ih =>
    obtain ⟨h1, h2, h3, h4⟩ := ih
    have he : escape (c :: s) = (if c = '$' then ['$', '$'] else [c]) ++ escape s := rfl
    rw [he, pieces]
    split
    · rename_i hc
      subst hc
      exact ⟨⟨trivial, h1⟩, by simp [render, h2], by simp [output, h3], by simpa using h4⟩
    · rename_i hc
      split
      · rename_i t ps hp
        rw [hp] at h1 h2 h3 h4
        refine ⟨⟨⟨by simp, ?_, h1.1.2.2⟩, h1.2⟩, ?_, ?_, ?_⟩
        · simp only [List.mem_cons, not_or]
          exact ⟨fun e => hc e.symm, h1.1.2.1⟩
        · rw [← h2]; simp [render]
        · simp only [output] at h3 ⊢; rw [List.cons_append, h3]
        · intro x; simpa using h4 x
      · rename_i hp
        refine ⟨⟨⟨by simp, ?_, hp⟩, h1⟩, ?_, ?_, ?_⟩
        · simp only [List.mem_singleton]; exact fun e => hc e.symm
        · rw [← h2]; simp [render]
        · simp [output, h3]
        · intro x; simpa using h4 x

/-- C309: every text can be put into a template: with its dollar signs doubled it is compiled without an error, and
the output is the text. -/
theorem escape_round_trip (calls : Bool) (ev ex sub : Str → Str) (s : Str) :
    (compile calls (escape s)).map (output ev ex sub) = some s := by
  obtain ⟨h1, h2, h3, h4⟩ := pieces_spec s ev ex sub
  rw [← h2, compile_render calls _ h1 (.inr h4)]
  simp [h3]

/-- C309: a text without a dollar sign is a template for itself. -/
theorem plain_text (calls : Bool) (ev ex sub : Str → Str) (s : Str) (h : '$' ∉ s) :
    (compile calls s).map (output ev ex sub) = some s := by
  have : escape s = s := by
    induction s with
    | nil => rfl
    | cons c s ih =>
      simp only [List.mem_cons, not_or] at h
      have : escape (c :: s) = (if c = '$' then ['$', '$'] else [c]) ++ escape s := rfl
      rw [this, if_neg (fun e => h.1 e.symm), ih h.2]
      rfl
  have h2 := escape_round_trip calls ev ex sub s
  rwa [this] at h2

/-- C309: a dollar sign that begins no directive is refused, wherever it stands behind constant text. -/
theorem unescaped_refused (calls : Bool) (t r : Str) (h : '$' ∉ t) (hd : directive r = none) :
    compile calls (t ++ '$' :: r) = none := by
  unfold compile
  cases t with
  | nil => simp [build, hd]
  | cons c t =>
    have hcd : c ≠ '$' := by rintro rfl; exact h (by simp)
    obtain ⟨d1, -⟩ := dropWhile_append_of_all (dollar_free h) ('$' :: r)
    have e : (('$' :: r : Str)).dropWhile (· != '$') = '$' :: r := by simp
    rw [e] at d1
    simp only [List.cons_append] at d1 ⊢
    rw [List.length_cons, build, if_neg hcd, d1, List.length_append, List.length_cons]
    rw [show t.length + (r.length + 1) = (t.length + r.length) + 1 by omega, build, if_pos rfl, hd]
    rfl

/-- C309: template functions do not support sub-templates. -/
theorem call_refused (x : Str) (hx : Ident x) (r : Str) (hr : NoBlankLine r) :
    compile false ('$' :: '<' :: x ++ '>' :: r) = none := by
  obtain ⟨⟨c, x, rfl, hc⟩, hall⟩ := hx
  obtain ⟨d1, d2⟩ := dropWhile_append_of_all hall ('>' :: r)
  have hd : ((('>' :: r : Str)).dropWhile identChar) = '>' :: r := by
    rw [List.dropWhile_cons_of_neg (by decide)]
  rw [hd] at d1
  unfold compile
  simp only [List.cons_append] at d1 d2 ⊢
  simp only [List.length_cons, build, if_true, directive, if_pos hc, d1, Bool.false_eq_true, if_false]

/-! ## Embedded code -/

/-- The number of white space characters at the beginning. -/
def indent (s : Str) : Nat := (s.takeWhile fun c => hspace c || c == '\n').length

/-- A line of white space only. -/
def blank (s : Str) : Bool := s.all fun c => hspace c || c == '\n'

def minList : List Nat → Nat
  | [] => 0
  | [a] => a
  | a :: l => min a (minList l)

/-- `__realign` on the lines of the code: a blank first line is removed, then the smallest indentation of the lines
that are not blank is removed from all lines, and `spaces` is put before them.
/repo/mdp/utils/templet.py 155-166. -/
def realign (spaces : Str) (lines : List Str) : List Str :=
  let ls := match lines with
    | l :: r => if blank l then r else l :: r
    | [] => []
  let margin := minList ((ls.filter fun l => !blank l).map indent)
  ls.map fun l => spaces ++ l.drop margin

theorem minList_le {l : List Nat} {a : Nat} (h : a ∈ l) : minList l ≤ a := by
  induction l with
  | nil => cases h
  | cons x l ih =>
    cases l with
    | nil => simp only [List.mem_singleton] at h; subst h; exact Nat.le_refl _
    | cons y l =>
      rw [minList]
      · rcases List.mem_cons.1 h with rfl | h
        · exact Nat.min_le_left _ _
        · exact Nat.le_trans (Nat.min_le_right _ _) (ih h)
      · simp

theorem minList_mem {l : List Nat} (h : l ≠ []) : minList l ∈ l := by
  induction l with
  | nil => exact absurd rfl h
  | cons x l ih =>
    cases l with
    | nil => simp [minList]
    | cons y l =>
      rw [minList]
      · have := ih (by simp)
        rcases Nat.le_total x (minList (y :: l)) with h1 | h1
        · rw [Nat.min_eq_left h1]; simp
        · rw [Nat.min_eq_right h1]; exact List.mem_cons_of_mem _ this
      · simp

/-- The lines that remain: all but a blank first one. -/
def kept (lines : List Str) : List Str :=
  match lines with
  | l :: r => if blank l then r else l :: r
  | [] => []

/-- C310: embedded code keeps its relative indentation: there is one number of columns such that every remaining
line loses its first characters up to this column and nothing else; on the lines with code these are white space;
and, when there is code at all, some line with code begins in the first column afterwards. -/
theorem realign_spec (spaces : Str) (lines : List Str) :
    ∃ margin, realign spaces lines = (kept lines).map (fun l => spaces ++ l.drop margin) ∧
      (∀ l ∈ kept lines, blank l = false →
        margin ≤ indent l ∧ blank (l.take margin) = true ∧ l.take margin ++ l.drop margin = l) ∧
      ((∃ l ∈ kept lines, blank l = false) → ∃ l ∈ kept lines, blank l = false ∧ indent l = margin) := by
  refine ⟨minList (((kept lines).filter fun l => !blank l).map indent), rfl, ?_, ?_⟩
  · intro l hl hb
    have hm : minList (((kept lines).filter fun l => !blank l).map indent) ≤ indent l := by
      refine minList_le (List.mem_map_of_mem (List.mem_filter.2 ⟨hl, by simp [hb]⟩))
    refine ⟨hm, ?_, List.take_append_drop _ _⟩
    unfold blank
    rw [List.all_eq_true]
    intro c hc
    have hpre : l.take (minList (((kept lines).filter fun l => !blank l).map indent)) <+:
        l.takeWhile fun c => hspace c || c == '\n' := by
      have h1 : l.takeWhile (fun c => hspace c || c == '\n') <+: l := List.takeWhile_prefix _
      rw [List.prefix_iff_eq_take] at h1
      rw [h1]
      exact List.take_prefix_take_left hm
    exact List.mem_takeWhile_imp (p := fun c => hspace c || c == '\n') (hpre.subset hc)
  · rintro ⟨l, hl, hb⟩
    have hne : ((kept lines).filter fun l => !blank l).map indent ≠ [] := by
      intro h
      have : indent l ∈ ((kept lines).filter fun l => !blank l).map indent :=
        List.mem_map_of_mem (List.mem_filter.2 ⟨hl, by simp [hb]⟩)
      rw [h] at this
      cases this
    obtain ⟨k, hk, hke⟩ := List.mem_map.1 (minList_mem hne)
    rw [List.mem_filter] at hk
    exact ⟨k, hk.1, by simpa using hk.2, hke⟩

/-! ### Examples -/

def exPieces : List Piece :=
  [.text ['a', ' '], .emit ['x', '+', '1'], .dollar, .text ['.', '\n'], .code ['f', '(', ')'], .text ['b'],
    .call ['h'], .cont, .text ['c']]

example : exPieces.flatMap render =
    ['a', ' ', '$', '{', 'x', '+', '1', '}', '$', '$', '.', '\n', '$', '{', '{', 'f', '(', ')', '}', '}', 'b', '$', '<',
      'h', '>', '$', '\n', 'c'] := by decide
example : compile true (exPieces.flatMap render) = some exPieces := by decide
example : compile true ['p', ':', ' ', '$', '$', '$', 'p', '_', '1', '.'] =
    some [.text ['p', ':', ' '], .dollar, .emit ['p', '_', '1'], .text ['.']] := by decide
example : compile true ['$', '{', '{', 'f', '}', '}', ' ', '\n', 'b'] = some [.code ['f'], .text ['b']] := by decide
example : directive ['0'] = none ∧ directive [] = none ∧ directive ['{', '{', 'a', '}'] = none := by decide
example : WF [.text ['a', ' '], .emit ['x', '+', '1'], .dollar, .text ['.']] := by
  refine ⟨⟨by decide, by decide, ?_⟩, ⟨by decide, by decide⟩, trivial, ⟨by decide, by decide, ?_⟩, trivial⟩ <;>
    intro t ps <;> simp
example : WF [.code ['f'], .text ['b']] := by
  refine ⟨⟨?_, ?_⟩, ⟨by decide, by decide, by simp⟩, trivial⟩
  · intro a b h
    have := congrArg List.length h
    match a, h with
    | [], h => simp at h
    | [_], h => simp at h
    | _ :: _ :: _, _ => simp at this
  · intro w r h
    match w, h with
    | [], h => simp [render] at h
    | x :: w, h =>
      simp [render] at h
example : realign [' '] [[' '], [' ', ' ', 'i', 'f'], [' ', ' ', ' ', 'x'], []] =
    [[' ', 'i', 'f'], [' ', ' ', 'x'], [' ']] := by decide

end Mdp.Templet
