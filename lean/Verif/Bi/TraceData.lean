import Mathlib.Data.List.Sort
import Mathlib.Data.String.Basic

/-!
# The data on the slides of a trace: `TraceHTMLConverter` (bimdp/inspection/tracer.py:543-716), C362

The strings that are written are lists of marks; line feeds and the attributes of the tags are left out. Texts are put into the file as they
are, so that a text which contains marks is outside of the model.
-/

namespace Mdp.TraceData

inductive Tag where
  | table | tr | td | pre | h3 | span
deriving DecidableEq

inductive Mark where
  | op (t : Tag)
  | cl (t : Tag)
  | br
  | text (s : String)
deriving DecidableEq

/-! ## Model -/

/-- Values: `None`, arrays (the text of the shape and the lines of the array), strings, dictionaries, tuples, other objects. -/
inductive Val where
  | none
  | array (shape : String) (rows : List String)
  | str (s : String)
  | dict (l : List (String × Val))
  | tuple (l : List Val)
  | other (s : String)

/-- `str` of values and `repr` of strings. -/
structure Show where
  str : Val → String
  repr : String → String

/-- The traced methods (tracer.py:44). -/
inductive Meth where
  | execute | train | stop
deriving DecidableEq

def Meth.name : Meth → String
  | .execute => "execute"
  | .train => "train"
  | .stop => "stop_training"

def Val.isArray : Val → Bool
  | .array _ _ => true
  | _ => false

/-- `_array_pretty_html` (570-577): each line of the array after a line break. -/
def arrayHtml (shape : String) (rows : List String) : List Mark :=
  .text ("array with shape " ++ shape) :: .br :: (rows.map Mark.text).intersperse .br

/-- The entries of a dictionary in the order of `_dict_pretty_html` (584-590); the keys are different strings. -/
def dictOrder (l : List (String × Val)) : List (String × Val) :=
  (l.filter fun p => !p.2.isArray).mergeSort (fun a b => a.1 ≤ b.1) ++ (l.filter fun p => p.2.isArray).mergeSort (fun a b => a.1 ≤ b.1)

/-- One entry (592-600). -/
def entryHtml (S : Show) (p : String × Val) : List Mark :=
  [.op .span, .text (S.repr p.1), .cl .span, .text ": "] ++
  match p.2 with
  | .str s => [.text (S.repr s)]
  | .array sh rows => arrayHtml sh rows
  | v => [.text (S.str v)]

/-- `_dict_pretty_html` (579-602). -/
def dictHtml (S : Show) (l : List (String × Val)) : List Mark :=
  .text "{" :: (List.intercalate [.text ",", .br] ((dictOrder l).map (entryHtml S)) ++ [.text "}"])

/-- An array as it is, everything else by `str` (672-677, 693-701). -/
def cell (S : Show) : Val → List Mark
  | .array sh rows => arrayHtml sh rows
  | v => [.text (S.str v)]

/-- A line of a table. -/
def rowHtml (label : String) (c : List Mark) : List Mark :=
  [.op .tr, .op .td, .op .pre, .text label, .cl .pre, .cl .td, .op .td] ++ c ++ [.cl .td, .cl .tr]

/-- `'<tr><td><pre>None</pre></tr></td>'` (668, 692). -/
def noneHtml : List Mark := [.op .tr, .op .td, .op .pre, .text "None", .cl .pre, .cl .tr, .cl .td]

/-- What has been written, and whether an exception ended the work. -/
abbrev Out := List Mark × Bool

def Out.next (a b : Out) : Out := if a.2 then a else (a.1 ++ b.1, b.2)

infixr:60 " ⋙ " => Out.next

def put (l : List Mark) : Out := (l, false)

/-- An exception. -/
def raise : Out := ([], true)

/-- The first argument (664-677); an empty tuple has no first element. -/
def firstArg (S : Show) (m : Meth) (args : List Val) : Out :=
  if m = .stop then
    match args with
    | [.none] => put noneHtml
    | _ => put []
  else
    match args with
    | [] => raise
    | x :: _ => put (rowHtml "x = " (cell S x))

/-- The message (679-682); what is not a dictionary has no `items`. -/
def msgArg (S : Show) (args : List Val) : Out :=
  match args.tail with
  | [] => put []
  | .none :: _ => put []
  | .dict l :: _ => put (rowHtml "msg = " (dictHtml S l))
  | _ :: _ => raise

/-- The result (691-716). -/
def resHtml (S : Show) : Val → Out
  | .none => put noneHtml
  | .array sh rows => put (rowHtml "x = " (arrayHtml sh rows))
  | .tuple l =>
    put [.op .tr, .op .td, .op .pre, .text "x = ", .cl .pre, .cl .td, .op .td] ⋙
    match l with
    | [] => raise
    | x :: l =>
      put (cell S x ++ [.cl .td, .cl .tr] ++ [.op .tr, .op .td, .op .pre, .text "msg = ", .cl .pre, .cl .td, .op .td]) ⋙
      match l with
      | [] => raise
      | m :: l =>
        put ((match m with | .dict d => dictHtml S d | v => [.text (S.str v)]) ++ [.cl .td, .cl .tr]) ⋙
        match l with
        | [] => put []
        | t :: _ => put (rowHtml "target = " [.text (S.str t)])
  | v => put (rowHtml "unknown result type: " [.text (S.str v)])

/-- `_write_data_html` (641-716). The table of the result is closed by the caller. -/
def dataHtml (S : Show) (m : Meth) (args : List Val) (kwargs : List (String × Val)) (res : Val) : Out :=
  put [.op .h3, .text (m.name ++ " arguments"), .cl .h3, .op .table] ⋙
  firstArg S m args ⋙ msgArg S args ⋙
  put (kwargs.flatMap (fun p => rowHtml (p.1 ++ " = ") [.text (S.str p.2)]) ++ [.cl .table] ++
    [.op .h3, .text (m.name ++ " result"), .cl .h3, .op .table]) ⋙
  resHtml S res

/-- `write_html` (604-639); `flow` is the picture of the flow. -/
def slide (S : Show) (flow : List Mark) (m : Meth) (args : List Val) (kwargs : List (String × Val)) (res : Val) : Out :=
  put ([.br, .br, .op .table, .op .tr, .op .td, .op .h3, .text "flow state", .cl .h3] ++ flow ++ [.cl .td, .op .td]) ⋙
  dataHtml S m args kwargs res ⋙ put [.cl .table, .cl .td, .cl .tr, .cl .table]

/-! ## Specification -/

/-- A document as a tree. -/
inductive Tree where
  | elem (t : Tag) (kids : List Tree)
  | br
  | text (s : String)

mutual
def Tree.flat : Tree → List Mark
  | .elem t l => .op t :: (flats l ++ [.cl t])
  | .br => [.br]
  | .text s => [.text s]

def flats : List Tree → List Mark
  | [] => []
  | x :: l => x.flat ++ flats l
end

/-- An opened tag is closed again by its own closing tag, inner tags before outer ones: `stack` holds the open tags. -/
def Nested : List Tag → List Mark → Prop
  | stack, [] => stack = []
  | stack, .op t :: l => Nested (t :: stack) l
  | t' :: stack, .cl t :: l => t = t' ∧ Nested stack l
  | [], .cl _ :: _ => False
  | stack, .br :: l => Nested stack l
  | stack, .text _ :: l => Nested stack l

/-- A line with a label. -/
def line (label : String) (c : List Tree) : Tree := .elem .tr [.elem .td [.elem .pre [.text label]], .elem .td c]

/-- The lines of an array. -/
def arrayTree (shape : String) (rows : List String) : List Tree :=
  .text ("array with shape " ++ shape) :: .br :: (rows.map Tree.text).intersperse .br

/-- A value in a line. -/
def valTree (S : Show) : Val → List Tree
  | .array sh rows => arrayTree sh rows
  | v => [.text (S.str v)]

/-- An entry of a dictionary. -/
def entryTree (S : Show) (p : String × Val) : List Tree :=
  [.elem .span [.text (S.repr p.1)], .text ": "] ++
  match p.2 with
  | .str s => [.text (S.repr s)]
  | v => valTree S v

/-- A dictionary whose entries are shown in the order `l`. -/
def dictTree (S : Show) (l : List (String × Val)) : List Tree :=
  .text "{" :: (List.intercalate [.text ",", .br] (l.map (entryTree S)) ++ [.text "}"])

/-- The order of the entries of a dictionary: arrays at the end, otherwise by name. -/
structure Ordered (l o : List (String × Val)) : Prop where
  perm : o.Perm l
  sorted : o.Pairwise fun a b => (a.2.isArray = false ∧ b.2.isArray = true) ∨ (a.2.isArray = b.2.isArray ∧ a.1 ≤ b.1)

/-- The lines for the message among the arguments. -/
inductive MsgLines (S : Show) : List Val → List Tree → Prop
  | no : MsgLines S [] []
  | none (l : List Val) : MsgLines S (.none :: l) []
  | dict (d o : List (String × Val)) (l : List Val) (h : Ordered d o) : MsgLines S (.dict d :: l) [line "msg = " (dictTree S o)]

/-- The message of a result. -/
inductive MsgTree (S : Show) : Val → List Tree → Prop
  | dict (d o : List (String × Val)) (h : Ordered d o) : MsgTree S (.dict d) (dictTree S o)
  | other (v : Val) (h : ∀ d, v ≠ .dict d) : MsgTree S v [.text (S.str v)]

/-- The lines for the result: the data alone, with a message, with a message and a target; a result that is none of these. -/
inductive ResLines (S : Show) : Val → List Tree → Prop
  | array (sh : String) (rows : List String) : ResLines S (.array sh rows) [line "x = " (arrayTree sh rows)]
  | pair (x m : Val) (c : List Tree) (h : MsgTree S m c) :
      ResLines S (.tuple [x, m]) [line "x = " (valTree S x), line "msg = " c]
  | target (x m : Val) (c : List Tree) (h : MsgTree S m c) (t : Val) (l : List Val) :
      ResLines S (.tuple (x :: m :: t :: l)) [line "x = " (valTree S x), line "msg = " c, line "target = " [.text (S.str t)]]
  | unknown (v : Val) (h : v ≠ .none ∧ v.isArray = false ∧ ∀ l, v ≠ .tuple l) :
      ResLines S v [line "unknown result type: " [.text (S.str v)]]

/-- The slide: the flow beside the lines of the arguments and of the result. -/
def slideTree (flow : List Tree) (name : String) (args res : List Tree) : List Tree :=
  [.br, .br, .elem .table [.elem .tr [.elem .td (.elem .h3 [.text "flow state"] :: flow),
    .elem .td [.elem .h3 [.text (name ++ " arguments")], .elem .table args, .elem .h3 [.text (name ++ " result")], .elem .table res]]]]

/-! ## Lemmas -/

theorem flats_append (a b : List Tree) : flats (a ++ b) = flats a ++ flats b := by
  induction a with
  | nil => rfl
  | cons x l ih => simp [flats, ih]

theorem flats_flatMap {A : Type} (f : A → Tree) (l : List A) : flats (l.map f) = l.flatMap fun a => (f a).flat := by
  induction l with
  | nil => rfl
  | cons x l ih => simp [flats, ih]

mutual
theorem flat_nested (stack : List Tag) (t : Tree) (l : List Mark) : Nested stack (t.flat ++ l) ↔ Nested stack l := by
  cases t with
  | elem t k =>
    simp only [Tree.flat, List.cons_append, List.append_assoc, Nested]
    rw [flats_nested (t :: stack) k]
    simp [Nested]
  | br => simp [Tree.flat, Nested]
  | text s => simp [Tree.flat, Nested]

theorem flats_nested (stack : List Tag) (k : List Tree) (l : List Mark) : Nested stack (flats k ++ l) ↔ Nested stack l := by
  cases k with
  | nil => simp [flats]
  | cons x k =>
    simp only [flats, List.append_assoc]
    rw [flat_nested stack x, flats_nested stack k]
end

theorem line_flat (label : String) (c : List Tree) : (line label c).flat = rowHtml label (flats c) := by
  simp [line, rowHtml, Tree.flat, flats]

theorem lines_flat (rows : List String) : flats ((rows.map Tree.text).intersperse .br) = (rows.map Mark.text).intersperse .br := by
  induction rows with
  | nil => rfl
  | cons a l ih =>
    cases l with
    | nil => simp [flats, Tree.flat]
    | cons b l =>
      simp only [List.map_cons, List.intersperse_cons₂] at ih ⊢
      simp only [flats, Tree.flat, List.singleton_append] at ih ⊢
      rw [ih]

theorem array_flat (sh : String) (rows : List String) : flats (arrayTree sh rows) = arrayHtml sh rows := by
  simp [arrayTree, arrayHtml, flats, Tree.flat, lines_flat]

theorem val_flat (S : Show) (v : Val) : flats (valTree S v) = cell S v := by
  cases v <;> simp [valTree, cell, array_flat, flats, Tree.flat]

theorem entry_flat (S : Show) (p : String × Val) : flats (entryTree S p) = entryHtml S p := by
  obtain ⟨k, v⟩ := p
  cases v <;> simp [entryTree, entryHtml, array_flat, flats, Tree.flat, valTree]

theorem intercalate_flat (S : Show) (l : List (String × Val)) :
    flats (List.intercalate [.text ",", .br] (l.map (entryTree S))) = List.intercalate [.text ",", .br] (l.map (entryHtml S)) := by
  induction l with
  | nil => rfl
  | cons a l ih =>
    cases l with
    | nil => simp [List.intercalate, entry_flat]
    | cons b l =>
      simp only [List.map_cons, List.intercalate_cons_cons] at ih ⊢
      simp only [flats_append, entry_flat] at ih ⊢
      rw [ih]
      simp [flats, Tree.flat]

theorem dict_flat (S : Show) (l : List (String × Val)) : flats (dictTree S (dictOrder l)) = dictHtml S l := by
  simp [dictTree, dictHtml, flats, Tree.flat, flats_append, intercalate_flat]

theorem next_put (a b : List Mark) : put a ⋙ put b = put (a ++ b) := rfl

theorem order_ok (l : List (String × Val)) : Ordered l (dictOrder l) := by
  have ht : ∀ a b c : String × Val, decide (a.1 ≤ b.1) = true → decide (b.1 ≤ c.1) = true → decide (a.1 ≤ c.1) = true := by
    intro a b c h1 h2
    simp only [decide_eq_true_eq] at *
    exact le_trans h1 h2
  have hl : ∀ a b : String × Val, (decide (a.1 ≤ b.1) || decide (b.1 ≤ a.1)) = true := by
    intro a b
    simp only [Bool.or_eq_true, decide_eq_true_eq]
    exact le_total _ _
  constructor
  · unfold dictOrder
    refine ((List.mergeSort_perm _ _).append (List.mergeSort_perm _ _)).trans ?_
    have := List.filter_append_perm (fun p : String × Val => !p.2.isArray) l
    simpa using this
  · unfold dictOrder
    rw [List.pairwise_append]
    refine ⟨?_, ?_, ?_⟩
    · refine (List.pairwise_mergeSort ht hl _).imp_of_mem ?_
      intro a b ha hb h
      have ha := (List.mem_filter.1 ((List.mergeSort_perm _ _).mem_iff.1 ha)).2
      have hb := (List.mem_filter.1 ((List.mergeSort_perm _ _).mem_iff.1 hb)).2
      simp only [Bool.not_eq_true', decide_eq_true_eq] at *
      exact Or.inr ⟨by rw [ha, hb], h⟩
    · refine (List.pairwise_mergeSort ht hl _).imp_of_mem ?_
      intro a b ha hb h
      have ha := (List.mem_filter.1 ((List.mergeSort_perm _ _).mem_iff.1 ha)).2
      have hb := (List.mem_filter.1 ((List.mergeSort_perm _ _).mem_iff.1 hb)).2
      simp only [decide_eq_true_eq] at *
      exact Or.inr ⟨by rw [ha, hb], h⟩
    · intro a ha b hb
      have ha := (List.mem_filter.1 ((List.mergeSort_perm _ _).mem_iff.1 ha)).2
      have hb := (List.mem_filter.1 ((List.mergeSort_perm _ _).mem_iff.1 hb)).2
      simp only [Bool.not_eq_true'] at ha
      exact Or.inl ⟨ha, hb⟩

theorem next_ok {a b : Out} : (a ⋙ b).2 = false ↔ a.2 = false ∧ b.2 = false := by
  unfold Out.next
  cases h : a.2 <;> simp [h]

theorem put_ok {o : Out} (h : o.2 = false) : o = put o.1 := by
  obtain ⟨a, b⟩ := o
  simp only at h
  rw [h]; rfl

theorem msg_lines (S : Show) (args : List Val) (h : (msgArg S args).2 = false) :
    ∃ ml, MsgLines S args.tail ml ∧ msgArg S args = put (flats ml) := by
  unfold msgArg at *
  generalize args.tail = r at *
  cases r with
  | nil => exact ⟨_, .no, rfl⟩
  | cons v r =>
    cases v with
    | none => exact ⟨_, .none r, rfl⟩
    | dict d => exact ⟨_, .dict d _ r (order_ok d), by simp [flats, line_flat, dict_flat]⟩
    | array _ _ => simp [raise] at h
    | str _ => simp [raise] at h
    | tuple _ => simp [raise] at h
    | other _ => simp [raise] at h

theorem msg_tree (S : Show) (m : Val) : ∃ c, MsgTree S m c ∧
    flats c = (match m with | .dict d => dictHtml S d | v => [.text (S.str v)]) := by
  cases m with
  | dict d => exact ⟨_, .dict d _ (order_ok d), dict_flat S d⟩
  | none => exact ⟨_, .other _ (by simp), rfl⟩
  | array _ _ => exact ⟨_, .other _ (by simp), rfl⟩
  | str _ => exact ⟨_, .other _ (by simp), rfl⟩
  | tuple _ => exact ⟨_, .other _ (by simp), rfl⟩
  | other _ => exact ⟨_, .other _ (by simp), rfl⟩

theorem res_lines (S : Show) (res : Val) (hn : res ≠ .none) (h : (resHtml S res).2 = false) :
    ∃ rl, ResLines S res rl ∧ resHtml S res = put (flats rl) := by
  cases res with
  | none => exact absurd rfl hn
  | array sh rows => exact ⟨_, .array sh rows, by simp [resHtml, flats, line_flat, array_flat]⟩
  | str s => exact ⟨_, .unknown _ ⟨by simp, rfl, by simp⟩, by simp [resHtml, flats, line_flat, Tree.flat]⟩
  | dict s => exact ⟨_, .unknown _ ⟨by simp, rfl, by simp⟩, by simp [resHtml, flats, line_flat, Tree.flat]⟩
  | other s => exact ⟨_, .unknown _ ⟨by simp, rfl, by simp⟩, by simp [resHtml, flats, line_flat, Tree.flat]⟩
  | tuple l =>
    cases l with
    | nil => simp [resHtml, raise, put, Out.next] at h
    | cons x l =>
      cases l with
      | nil => simp [resHtml, raise, put, Out.next] at h
      | cons m l =>
        obtain ⟨c, hc, he⟩ := msg_tree S m
        cases l with
        | nil =>
          refine ⟨_, .pair x m c hc, ?_⟩
          simp only [resHtml, next_put, ← he, flats, line_flat, val_flat, rowHtml]
          simp
        | cons t l =>
          refine ⟨_, .target x m c hc t l, ?_⟩
          simp only [resHtml, next_put, ← he, flats, line_flat, val_flat, rowHtml, Tree.flat]
          simp

/-! ## Properties -/

/-- **C362** (slide_page): the slide for a call of `execute` or `train`, unless the result is `None`: beside the flow stand the data, the message if
there is one (arrays at the end, otherwise by name) and the named arguments, below them the result, each in a line of its own. -/
theorem slide_page (S : Show) (flow : List Tree) (m : Meth) (hm : m ≠ .stop) (x : Val) (rest : List Val) (kwargs : List (String × Val)) (res : Val)
    (hr : res ≠ .none) (hok : (slide S (flats flow) m (x :: rest) kwargs res).2 = false) :
    ∃ ml rl, MsgLines S rest ml ∧ ResLines S res rl ∧
      (slide S (flats flow) m (x :: rest) kwargs res).1 = flats (slideTree flow m.name
        (line "x = " (valTree S x) :: (ml ++ kwargs.map fun p => line (p.1 ++ " = ") [.text (S.str p.2)])) rl) := by
  unfold slide dataHtml at hok
  simp only [next_ok] at hok
  obtain ⟨ml, h1, h2⟩ := msg_lines S _ hok.2.1.2.2.1
  obtain ⟨rl, h3, h4⟩ := res_lines S res hr hok.2.1.2.2.2.2
  refine ⟨ml, rl, h1, h3, ?_⟩
  unfold slide dataHtml
  rw [h2, h4]
  unfold firstArg
  rw [if_neg hm]
  simp only [next_put, slideTree, flats, Tree.flat, flats_append, line_flat, val_flat, flats_flatMap]
  simp [put, flats, Tree.flat]

/-- **C362** (stop_page): the slide for `stop_training` with anything but `None` as its only argument. -/
theorem stop_page (S : Show) (flow : List Tree) (args : List Val) (ha : args ≠ [.none]) (kwargs : List (String × Val)) (res : Val)
    (hr : res ≠ .none) (hok : (slide S (flats flow) .stop args kwargs res).2 = false) :
    ∃ ml rl, MsgLines S args.tail ml ∧ ResLines S res rl ∧
      (slide S (flats flow) .stop args kwargs res).1 = flats (slideTree flow "stop_training"
        (ml ++ kwargs.map fun p => line (p.1 ++ " = ") [.text (S.str p.2)]) rl) := by
  unfold slide dataHtml at hok
  simp only [next_ok] at hok
  obtain ⟨ml, h1, h2⟩ := msg_lines S _ hok.2.1.2.2.1
  obtain ⟨rl, h3, h4⟩ := res_lines S res hr hok.2.1.2.2.2.2
  refine ⟨ml, rl, h1, h3, ?_⟩
  have e : firstArg S .stop args = put [] := by
    unfold firstArg
    rw [if_pos rfl]
    split
    · exact absurd rfl ha
    · rfl
  unfold slide dataHtml
  rw [h2, h4, e]
  simp only [next_put, slideTree, flats, Tree.flat, flats_append, flats_flatMap, line_flat]
  simp [put, flats, Tree.flat, Meth.name]

theorem none_nested (st : List Tag) (l : List Mark) : ¬ Nested st (noneHtml ++ l) := by
  simp [noneHtml, Nested]

/-- **C362** (slide_nested_partial): a slide that is written without an exception is proper HTML exactly if no `None` is shown: neither as the
result nor as the argument of `stop_training`. -/
theorem slide_nested_partial (S : Show) (flow : List Tree) (m : Meth) (args : List Val) (kwargs : List (String × Val)) (res : Val)
    (hok : (slide S (flats flow) m args kwargs res).2 = false) :
    Nested [] (slide S (flats flow) m args kwargs res).1 ↔ res ≠ .none ∧ ¬(m = .stop ∧ args = [.none]) := by
  by_cases hs : m = .stop ∧ args = [.none]
  · obtain ⟨rfl, rfl⟩ := hs
    simp only [not_true_eq_false, and_false, and_self, iff_false]
    unfold slide dataHtml at hok ⊢
    simp only [next_ok] at hok
    rw [put_ok hok.2.1.2.2.2.2]
    simp only [firstArg, msgArg, List.tail_cons, next_put, if_true]
    simp only [put, List.append_assoc, List.cons_append, List.nil_append, Nested, flats_nested]
    simp [noneHtml, Nested]
  · simp only [hs, not_false_eq_true, and_true]
    by_cases hr : res = .none
    · subst hr
      simp only [ne_eq, not_true_eq_false, iff_false]
      unfold slide dataHtml at hok ⊢
      simp only [next_ok] at hok
      obtain ⟨ml, h1, h2⟩ := msg_lines S _ hok.2.1.2.2.1
      obtain ⟨fl, h3⟩ : ∃ fl, firstArg S m args = put (flats fl) := by
        have hf := hok.2.1.2.1
        unfold firstArg at hf ⊢
        by_cases hm : m = .stop
        · rw [if_pos hm]
          split
          · exact absurd ⟨hm, rfl⟩ hs
          · exact ⟨[], rfl⟩
        · rw [if_neg hm] at hf ⊢
          cases args with
          | nil => simp [raise] at hf
          | cons x l => exact ⟨[line "x = " (valTree S x)], by simp [flats, line_flat, val_flat]⟩
      have h5 : kwargs.flatMap (fun p => rowHtml (p.1 ++ " = ") [.text (S.str p.2)]) =
          flats (kwargs.map fun p => line (p.1 ++ " = ") [.text (S.str p.2)]) := by
        rw [flats_flatMap]; simp [line_flat, flats, Tree.flat]
      rw [h2, h3, h5]
      simp only [resHtml, next_put]
      simp only [put, List.append_assoc, List.cons_append, List.nil_append, Nested, flats_nested]
      simp [noneHtml, Nested]
    · simp only [ne_eq, hr, not_false_eq_true, iff_true]
      have key : ∀ k : List Tree, Nested [] (flats k) := by
        intro k
        have := (flats_nested [] k []).2 (by simp [Nested])
        rwa [List.append_nil] at this
      by_cases hm : m = .stop
      · subst hm
        obtain ⟨ml, rl, _, _, e⟩ := stop_page S flow args (fun h => hs ⟨rfl, h⟩) kwargs res hr hok
        rw [e]; exact key _
      · cases args with
        | nil =>
          unfold slide dataHtml at hok
          simp [next_ok, firstArg, hm, raise] at hok
        | cons x l =>
          obtain ⟨ml, rl, _, _, e⟩ := slide_page S flow m hm x l kwargs res hr hok
          rw [e]; exact key _

/-- **C362** (slide_raises): a slide cannot be written exactly if `execute` or `train` got no positional argument, the second positional argument is
neither `None` nor a dictionary, or the result is a tuple of less than two values. -/
theorem slide_raises (S : Show) (flow : List Mark) (m : Meth) (args : List Val) (kwargs : List (String × Val)) (res : Val) :
    (slide S flow m args kwargs res).2 = true ↔
      (m ≠ .stop ∧ args = []) ∨ (∃ a v l, args = a :: v :: l ∧ v ≠ .none ∧ ∀ d, v ≠ .dict d) ∨ (∃ l, res = .tuple l ∧ l.length < 2) := by
  have h1 : (firstArg S m args).2 = true ↔ m ≠ .stop ∧ args = [] := by
    unfold firstArg
    by_cases hm : m = .stop
    · simp only [hm, if_true, ne_eq, not_true_eq_false, false_and, iff_false]
      split <;> simp [put]
    · simp only [hm, if_false, ne_eq, not_false_eq_true, true_and]
      cases args <;> simp [put, raise]
  have h2 : (msgArg S args).2 = true ↔ ∃ a v l, args = a :: v :: l ∧ v ≠ .none ∧ ∀ d, v ≠ .dict d := by
    unfold msgArg
    cases args with
    | nil => simp [put]
    | cons a r =>
      cases r with
      | nil => simp [put]
      | cons v r => cases v <;> simp [put, raise]
  have h3 : (resHtml S res).2 = true ↔ ∃ l, res = .tuple l ∧ l.length < 2 := by
    cases res with
    | tuple l =>
      cases l with
      | nil => simp [resHtml, put, raise, Out.next]
      | cons x l =>
        cases l with
        | nil => simp [resHtml, put, raise, Out.next]
        | cons y l =>
          cases l <;> simp [resHtml, put, Out.next]
    | _ => simp [resHtml, put]
  have e : (slide S flow m args kwargs res).2 = ((firstArg S m args).2 || (msgArg S args).2 || (resHtml S res).2) := by
    have hn : ∀ a b : Out, (a ⋙ b).2 = (a.2 || b.2) := by
      intro a b
      unfold Out.next
      cases h : a.2 <;> simp [h]
    unfold slide dataHtml
    simp only [hn, put, Bool.or_false, Bool.false_or, Bool.or_assoc]
  rw [e]
  simp only [Bool.or_eq_true, h1, h2, h3, or_assoc]

/-- **C362**, negation: a slide for a call with the result `None`, as of `train` of all nodes that are no BiNodes, is not proper HTML. -/
theorem slide_nested_violation (S : Show) (flow : List Tree) (x : Val) :
    (slide S (flats flow) .train [x] [] .none).2 = false ∧ ¬ Nested [] (slide S (flats flow) .train [x] [] .none).1 := by
  have h : (slide S (flats flow) .train [x] [] .none).2 = false := by
    rw [← Bool.not_eq_true, slide_raises]; simp
  refine ⟨h, ?_⟩
  rw [slide_nested_partial S flow .train [x] [] .none h]
  simp

/-- **C362**, negation: the message given to `stop_training` is not on its slide, which is the same for all messages. -/
theorem stop_message_violation (S : Show) (flow : List Mark) (d d' : List (String × Val)) (kwargs : List (String × Val)) (res : Val) :
    slide S flow .stop [.dict d] kwargs res = slide S flow .stop [.dict d'] kwargs res ∧
    slide S flow .stop [.dict d] kwargs res = slide S flow .stop [] kwargs res := ⟨rfl, rfl⟩

/-- The hypotheses are met. -/
example : (slide ⟨fun _ => "v", fun s => "'" ++ s ++ "'"⟩ (flats [.text "f"]) .execute
    [.array "(1, 2)" ["[[1 2]]"], .dict [("b", .array "(1,)" ["[3]"]), ("c", .str "s"), ("a", .none)]] [] (.tuple [.none, .dict [], .str "t"])).2 = false :=
  rfl

example : slide ⟨fun _ => "v", fun s => "'" ++ s ++ "'"⟩ (flats [.text "f"]) .execute
    [.array "(1, 2)" ["[[1 2]]"]] [] (.array "(1,)" ["[3]"]) = put
    [.br, .br, .op .table, .op .tr, .op .td, .op .h3, .text "flow state", .cl .h3, .text "f", .cl .td, .op .td,
      .op .h3, .text "execute arguments", .cl .h3, .op .table,
      .op .tr, .op .td, .op .pre, .text "x = ", .cl .pre, .cl .td, .op .td, .text "array with shape (1, 2)", .br, .text "[[1 2]]", .cl .td, .cl .tr,
      .cl .table, .op .h3, .text "execute result", .cl .h3, .op .table,
      .op .tr, .op .td, .op .pre, .text "x = ", .cl .pre, .cl .td, .op .td, .text "array with shape (1,)", .br, .text "[3]", .cl .td, .cl .tr,
      .cl .table, .cl .td, .cl .tr, .cl .table] := rfl

end Mdp.TraceData
