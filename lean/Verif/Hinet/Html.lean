import Mathlib.Data.List.Basic

/-! # The HTML picture of a flow: `HiNetHTMLVisitor`, `BiHiNetHTMLVisitor`, `show_flow` (C341, C342)

The strings that are written are modelled as lists of marks (opening and closing tags, `<br>`, text); the line feeds after
each write and the attribute `style` are left out.  The texts are put into the file as they are, so that a name or an id
which contains marks is outside of the model. -/

namespace Mdp.Html

inductive Tag where
  | html | head | title | style | body | h3 | par | table | tr | td | span
deriving DecidableEq

/-- A piece of the file. The second component of `op` is the class of the tag. -/
inductive Mark where
  | op (t : Tag) (cls : String)
  | cl (t : Tag)
  | br
  | text (s : String)
deriving DecidableEq

/-! ## Model -/

/-- What the visitors read of a node: `str(node)`, the dimensions, `get_node_size_str`, the id of a `BiNode`. -/
structure Info where
  name : String
  inDim : Option Nat
  outDim : Option Nat
  size : String
  id : Option String

/-- The nodes as the visitors tell them apart: everything else (with the result of `html_representation`, `none` if it
raises), `FlowNode`, `Layer`, `SameInputLayer`, `CloneLayer` with its number of nodes, the value `use_copies` of a
`CloneBiLayer`, and its node. -/
inductive Obj where
  | leaf (i : Info) (rep : Option (List Mark))
  | flow (i : Info) (l : List Obj)
  | layer (i : Info) (l : List Obj)
  | same (i : Info) (l : List Obj)
  | clone (i : Info) (n : Nat) (u : Option Bool) (o : Obj)

/-- What has been written, and whether an exception ended the work. -/
abbrev Out := List Mark × Bool

/-- Statements in sequence. -/
def Out.next (a b : Out) : Out := if a.2 then a else (a.1 ++ b.1, b.2)

infixr:60 " ⋙ " => Out.next

def put (l : List Mark) : Out := (l, false)

/-- `str(node.input_dim)`. -/
def dimStr : Option Nat → String
  | none => "None"
  | some n => toString n

/-- The arguments of the visitor: `show_size`, and whether it is the `BiHiNetHTMLVisitor`. -/
structure Opts where
  showSize : Bool
  bi : Bool

/-- `_write_node_header`; `struc` tells whether `type_id` is "flow" or "flownode".
/repo/mdp/hinet/htmlvisitor.py 165-172. /repo/bimdp/hinet/bihtmlvisitor.py 55-73: a flow is not a `BiNode`. -/
def header (o : Opts) (i : Info) (struc : Bool) : List Mark :=
  (if o.bi then
    if struc then
      match i.id with
      | some s => [.op .tr "", .op .td "dim", .op .span "bicolor", .text ("id: " ++ s), .cl .span, .cl .td, .cl .tr]
      | none => []
    else
      [.op .tr "", .op .td "dim", .text ("in-dim: " ++ dimStr i.inDim)] ++
      (match i.id with
      | some s => [.text "&nbsp;&nbsp;", .op .span "bicolor", .text ("id: " ++ s), .cl .span]
      | none => []) ++ [.cl .td, .cl .tr]
  else if struc then []
  else [.op .tr "", .op .td "dim", .text ("in-dim: " ++ dimStr i.inDim), .cl .td, .cl .tr]) ++
  [.op .tr "", .op .td "", .op .table "nodestruct"]

/-- `_open_node_env`. /repo/mdp/hinet/htmlvisitor.py 156-163. -/
def openEnv (o : Opts) (i : Info) (typeId : String) : List Mark :=
  .op .table typeId :: header o i (typeId == "flow" || typeId == "flownode")

/-- `_close_node_env`. /repo/mdp/hinet/htmlvisitor.py 174-190. -/
def closeEnv (o : Opts) (i : Info) (typeId : String := "node") : List Mark :=
  [.cl .table, .cl .td, .cl .tr] ++
  (if typeId == "flow" || typeId == "flownode" then []
   else [.op .tr "", .op .td "dim", .text ("out-dim: " ++ dimStr i.outDim)] ++
     (if o.showSize then [.text "&nbsp;&nbsp;", .op .span "memorycolor", .text ("size: " ++ i.size), .cl .span] else []) ++
     [.cl .td, .cl .tr]) ++
  [.cl .table]

mutual
/-- `_visit_node` with `_visit_flownode`, `_visit_layer`, `_visit_clonelayer`, `_visit_sameinputlayer`,
`_visit_standard_node`.  `BiHiNetHTMLVisitor` does not override them: its `_translate_clonelayer` is never called.
/repo/mdp/hinet/htmlvisitor.py 83-152. -/
def visit (o : Opts) : Obj → Out
  | .leaf i rep =>
    put (openEnv o i "node" ++ [.op .tr "", .op .td "nodename", .text i.name, .cl .td, .cl .tr,
      .op .tr "", .op .td "nodeparams"]) ⋙
    (match rep with | some r => put r | none => ([], true)) ⋙
    put ([.cl .td, .cl .tr] ++ closeEnv o i)
  | .flow i l => put (openEnv o i "flownode") ⋙ visitRows o l ⋙ put (closeEnv o i "flownode")
  | .layer i l =>
    put (openEnv o i "layer" ++ [.op .tr ""]) ⋙ visitCells o l ⋙ put ([.cl .tr] ++ closeEnv o i)
  | .same i l =>
    put (openEnv o i "layer" ++ [.op .tr "", .op .td "nodename", .text i.name, .cl .td, .cl .tr, .op .tr ""]) ⋙
    visitCells o l ⋙ put ([.cl .tr] ++ closeEnv o i)
  | .clone i n _ x =>
    put (openEnv o i "layer" ++ [.op .tr "", .op .td "nodename", .text i.name, .br, .br,
      .text (toString n ++ " repetitions"), .cl .td, .op .td ""]) ⋙
    visit o x ⋙ put ([.cl .td, .cl .tr] ++ closeEnv o i)

/-- The loop over the nodes of a flow. /repo/mdp/hinet/htmlvisitor.py 62-65, 104-107. -/
def visitRows (o : Opts) : List Obj → Out
  | [] => put []
  | x :: l => put [.op .tr "", .op .td ""] ⋙ visit o x ⋙ put [.cl .td, .cl .tr] ⋙ visitRows o l

/-- The loop over the nodes of a layer. /repo/mdp/hinet/htmlvisitor.py 114-117, 139-142. -/
def visitCells (o : Opts) : List Obj → Out
  | [] => put []
  | x :: l => put [.op .td ""] ⋙ visit o x ⋙ put [.cl .td] ⋙ visitCells o l
end

/-- A flow has neither dimensions nor an id that are read. -/
def noInfo : Info := ⟨"", none, none, "", none⟩

/-- `convert_flow`. /repo/mdp/hinet/htmlvisitor.py 56-66. -/
def convertFlow (o : Opts) (l : List Obj) : Out :=
  put (openEnv o noInfo "flow") ⋙ visitRows o l ⋙ put (closeEnv o noInfo "flow")

/-- `show_flow` and `show_biflow`, the content of the file.  With an exception the file stays as it is.
/repo/mdp/hinet/htmlvisitor.py 300-341, /repo/bimdp/hinet/bihtmlvisitor.py 93-125. -/
def showFlow (o : Opts) (title css : String) (l : List Obj) : Out :=
  put [.op .html "", .op .head "", .op .title "", .text title, .cl .title, .op .style "", .text css, .cl .style,
    .cl .head, .op .body "", .op .h3 "", .text title, .cl .h3,
    .op .par "explanation", .text "(data flows from top to bottom)", .cl .par, .br, .br, .br] ⋙
  convertFlow o l ⋙ put [.cl .body, .cl .html]

/-! ## Specification -/

/-- A document as a tree. -/
inductive Tree where
  | elem (t : Tag) (cls : String) (kids : List Tree)
  | br
  | text (s : String)

mutual
/-- How a tree is written. -/
def Tree.flat : Tree → List Mark
  | .elem t c l => .op t c :: (flats l ++ [.cl t])
  | .br => [.br]
  | .text s => [.text s]

def flats : List Tree → List Mark
  | [] => []
  | x :: l => x.flat ++ flats l
end

/-- An opened tag is closed again by its own closing tag, inner tags before outer ones: `stack` holds the open tags. -/
def Nested : List Tag → List Mark → Prop
  | stack, [] => stack = []
  | stack, .op t _ :: l => Nested (t :: stack) l
  | t' :: stack, .cl t :: l => t = t' ∧ Nested stack l
  | [], .cl _ :: _ => False
  | stack, .br :: l => Nested stack l
  | stack, .text _ :: l => Nested stack l

/-- The tag of a tree. -/
def Tree.tag : Tree → Option Tag
  | .elem t _ _ => some t
  | _ => none

/-- In a table there are only rows, in a row only cells. -/
inductive Valid : Tree → Prop
  | br : Valid .br
  | text (s : String) : Valid (.text s)
  | elem (t : Tag) (c : String) (l : List Tree) (h : ∀ x ∈ l, Valid x)
      (ht : t = .table → ∀ x ∈ l, x.tag = some .tr) (hr : t = .tr → ∀ x ∈ l, x.tag = some .td) : Valid (.elem t c l)

/-- The two frames around the picture of a node: `inner` are the rows of the inner table. -/
def frame (cls : String) (top bottom inner : List Tree) : Tree :=
  .elem .table cls (top ++ [.elem .tr "" [.elem .td "" [.elem .table "nodestruct" inner]]] ++ bottom)

/-- The line with the input dimension, in the bidirectional version with the id. -/
def topRow (o : Opts) (i : Info) : List Tree :=
  [.elem .tr "" [.elem .td "dim" (.text ("in-dim: " ++ dimStr i.inDim) ::
    (match o.bi, i.id with
     | true, some s => [.text "&nbsp;&nbsp;", .elem .span "bicolor" [.text ("id: " ++ s)]]
     | _, _ => []))]]

/-- The line of a flow. -/
def topFlow (o : Opts) (i : Info) : List Tree :=
  match o.bi, i.id with
  | true, some s => [.elem .tr "" [.elem .td "dim" [.elem .span "bicolor" [.text ("id: " ++ s)]]]]
  | _, _ => []

/-- The line with the output dimension and the size. -/
def bottomRow (o : Opts) (i : Info) : List Tree :=
  [.elem .tr "" [.elem .td "dim" (.text ("out-dim: " ++ dimStr i.outDim) ::
    (if o.showSize then [.text "&nbsp;&nbsp;", .elem .span "memorycolor" [.text ("size: " ++ i.size)]] else []))]]

/-- The line with the name of a node. -/
def nameCell (s : String) : Tree := .elem .td "nodename" [.text s]

mutual
/-- `p` is the picture of a node: nodes of a flow below each other, nodes of a layer side by side, the node of a clone
layer once, beside the number of copies; a plain node shows its name and its own representation `r`. -/
inductive Pic (o : Opts) : Obj → Tree → Prop
  | leaf (i : Info) (r : List Tree) : Pic o (.leaf i (some (flats r)))
      (frame "node" (topRow o i) (bottomRow o i)
        [.elem .tr "" [nameCell i.name], .elem .tr "" [.elem .td "nodeparams" r]])
  | flow (i : Info) (l : List Obj) (p : List Tree) (h : Pics o l p) : Pic o (.flow i l)
      (frame "flownode" (topFlow o i) [] (p.map fun x => .elem .tr "" [.elem .td "" [x]]))
  | layer (i : Info) (l : List Obj) (p : List Tree) (h : Pics o l p) : Pic o (.layer i l)
      (frame "layer" (topRow o i) (bottomRow o i) [.elem .tr "" (p.map fun x => .elem .td "" [x])])
  | same (i : Info) (l : List Obj) (p : List Tree) (h : Pics o l p) : Pic o (.same i l)
      (frame "layer" (topRow o i) (bottomRow o i)
        [.elem .tr "" [nameCell i.name], .elem .tr "" (p.map fun x => .elem .td "" [x])])
  | clone (i : Info) (n : Nat) (u : Option Bool) (x : Obj) (p : Tree) (h : Pic o x p) : Pic o (.clone i n u x)
      (frame "layer" (topRow o i) (bottomRow o i)
        [.elem .tr "" [.elem .td "nodename" [.text i.name, .br, .br, .text (toString n ++ " repetitions")],
          .elem .td "" [p]]])

inductive Pics (o : Opts) : List Obj → List Tree → Prop
  | nil : Pics o [] []
  | cons (x : Obj) (l : List Obj) (p : Tree) (q : List Tree) (h : Pic o x p) (t : Pics o l q) : Pics o (x :: l) (p :: q)
end

/-- The page: head, title and the picture of the flow. -/
def page (title css : String) (p : List Tree) : Tree :=
  .elem .html "" [.elem .head "" [.elem .title "" [.text title], .elem .style "" [.text css]],
    .elem .body "" [.elem .h3 "" [.text title],
      .elem .par "explanation" [.text "(data flows from top to bottom)"], .br, .br, .br,
      frame "flow" [] [] (p.map fun x => .elem .tr "" [.elem .td "" [x]])]]

mutual
/-- The representation of each node inside of `x` is a list of trees in which tables are made of rows and rows of cells. -/
inductive RepsOk : Obj → Prop
  | leaf (i : Info) (r : List Tree) (h : ∀ t ∈ r, Valid t) : RepsOk (.leaf i (some (flats r)))
  | flow (i : Info) (l : List Obj) (h : RepssOk l) : RepsOk (.flow i l)
  | layer (i : Info) (l : List Obj) (h : RepssOk l) : RepsOk (.layer i l)
  | same (i : Info) (l : List Obj) (h : RepssOk l) : RepsOk (.same i l)
  | clone (i : Info) (n : Nat) (u : Option Bool) (x : Obj) (h : RepsOk x) : RepsOk (.clone i n u x)

inductive RepssOk : List Obj → Prop
  | nil : RepssOk []
  | cons (x : Obj) (l : List Obj) (h : RepsOk x) (t : RepssOk l) : RepssOk (x :: l)
end

mutual
/-- Some node inside of the object has no representation: its method raises. -/
inductive Broken : Obj → Prop
  | leaf (i : Info) : Broken (.leaf i none)
  | flow (i : Info) (l : List Obj) (h : Brokens l) : Broken (.flow i l)
  | layer (i : Info) (l : List Obj) (h : Brokens l) : Broken (.layer i l)
  | same (i : Info) (l : List Obj) (h : Brokens l) : Broken (.same i l)
  | clone (i : Info) (n : Nat) (u : Option Bool) (x : Obj) (h : Broken x) : Broken (.clone i n u x)

inductive Brokens : List Obj → Prop
  | head (x : Obj) (l : List Obj) (h : Broken x) : Brokens (x :: l)
  | tail (x : Obj) (l : List Obj) (h : Brokens l) : Brokens (x :: l)
end

/-! ## Lemmas -/

theorem flats_append (a b : List Tree) : flats (a ++ b) = flats a ++ flats b := by
  induction a with
  | nil => rfl
  | cons x l ih => simp [flats, ih]

theorem flats_nil : flats [] = [] := rfl
theorem flats_cons (x : Tree) (l : List Tree) : flats (x :: l) = x.flat ++ flats l := by simp [flats]
theorem flat_elem (t : Tag) (c : String) (l : List Tree) : (Tree.elem t c l).flat = .op t c :: (flats l ++ [.cl t]) := by
  simp [Tree.flat]

theorem next_put (a : List Mark) (b : List Mark) : put a ⋙ put b = put (a ++ b) := rfl

theorem flat_frame (cls : String) (top bottom inner : List Tree) :
    (frame cls top bottom inner).flat = .op .table cls :: (flats top ++
      ([.op .tr "", .op .td "", .op .table "nodestruct"] ++ (flats inner ++ ([.cl .table, .cl .td, .cl .tr] ++
      (flats bottom ++ [.cl .table]))))) := by
  simp [frame, Tree.flat, flats, flats_append]

theorem header_node (o : Opts) (i : Info) :
    header o i false = flats (topRow o i) ++ [.op .tr "", .op .td "", .op .table "nodestruct"] := by
  unfold header topRow
  cases o.bi <;> cases i.id <;> simp [flats, Tree.flat]

theorem header_flow (o : Opts) (i : Info) :
    header o i true = flats (topFlow o i) ++ [.op .tr "", .op .td "", .op .table "nodestruct"] := by
  unfold header topFlow
  cases o.bi <;> cases i.id <;> simp [flats, Tree.flat]

theorem close_node (o : Opts) (i : Info) :
    closeEnv o i = [.cl .table, .cl .td, .cl .tr] ++ (flats (bottomRow o i) ++ [.cl .table]) := by
  unfold closeEnv bottomRow
  cases o.showSize <;> simp [flats, Tree.flat]

theorem close_flow (o : Opts) (i : Info) (s : String) (h : s = "flow" ∨ s = "flownode") :
    closeEnv o i s = [.cl .table, .cl .td, .cl .tr] ++ [.cl .table] := by
  rcases h with rfl | rfl <;> simp [closeEnv]

theorem open_layer (o : Opts) (i : Info) (s : String) (h : s = "layer" ∨ s = "node") :
    openEnv o i s = .op .table s :: header o i false := by
  rcases h with rfl | rfl <;> simp [openEnv]

theorem open_flow (o : Opts) (i : Info) (s : String) (h : s = "flow" ∨ s = "flownode") :
    openEnv o i s = .op .table s :: header o i true := by
  rcases h with rfl | rfl <;> simp [openEnv]

mutual
theorem pic_visit (o : Opts) {x : Obj} {p : Tree} (h : Pic o x p) : visit o x = put p.flat := by
  cases h with
  | leaf i r =>
    simp only [visit, next_put, flat_frame, open_layer o i "node" (Or.inr rfl), header_node, close_node]
    simp [nameCell, flats, Tree.flat]
  | flow i l p h =>
    simp only [visit, pics_rows o h, next_put, flat_frame, open_flow o i "flownode" (Or.inr rfl), header_flow,
      close_flow o i "flownode" (Or.inr rfl)]
    simp [flats]
  | layer i l p h =>
    simp only [visit, pics_cells o h, next_put, flat_frame, open_layer o i "layer" (Or.inl rfl), header_node, close_node]
    simp [flats, Tree.flat]
  | same i l p h =>
    simp only [visit, pics_cells o h, next_put, flat_frame, open_layer o i "layer" (Or.inl rfl), header_node, close_node]
    simp [flats, Tree.flat, nameCell]
  | clone i n u x p h =>
    simp only [visit, pic_visit o h, next_put, flat_frame, open_layer o i "layer" (Or.inl rfl), header_node, close_node]
    simp [flats, Tree.flat]

theorem pics_rows (o : Opts) {l : List Obj} {p : List Tree} (h : Pics o l p) :
    visitRows o l = put (flats (p.map fun x => .elem .tr "" [.elem .td "" [x]])) := by
  cases h with
  | nil => simp [visitRows, flats]
  | cons x l p q h t =>
    simp only [visitRows, pic_visit o h, pics_rows o t, next_put]
    simp [flats, Tree.flat]

theorem pics_cells (o : Opts) {l : List Obj} {p : List Tree} (h : Pics o l p) :
    visitCells o l = put (flats (p.map fun x => .elem .td "" [x])) := by
  cases h with
  | nil => simp [visitCells, flats]
  | cons x l p q h t =>
    simp only [visitCells, pic_visit o h, pics_cells o t, next_put]
    simp [flats, Tree.flat]
end

theorem mem_one {x y : Tree} (h : x ∈ [y]) : x = y := List.mem_singleton.1 h

theorem valid_td (c : String) (l : List Tree) (h : ∀ x ∈ l, Valid x) : Valid (.elem .td c l) :=
  .elem _ _ _ h (by simp) (by simp)

theorem valid_tr (c : String) (l : List Tree) (h : ∀ x ∈ l, Valid x ∧ x.tag = some .td) : Valid (.elem .tr c l) :=
  .elem _ _ _ (fun x hx => (h x hx).1) (by simp) (fun _ x hx => (h x hx).2)

theorem valid_table (c : String) (l : List Tree) (h : ∀ x ∈ l, Valid x ∧ x.tag = some .tr) : Valid (.elem .table c l) :=
  .elem _ _ _ (fun x hx => (h x hx).1) (fun _ x hx => (h x hx).2) (by simp)

theorem valid_span (c s : String) : Valid (.elem .span c [.text s]) :=
  .elem _ _ _ (by intro x hx; rw [mem_one hx]; exact .text _) (by simp) (by simp)

/-- A row of a table. -/
def Row (x : Tree) : Prop := Valid x ∧ x.tag = some .tr

theorem row_tr (c : String) (l : List Tree) (h : ∀ x ∈ l, Valid x ∧ x.tag = some .td) : Row (.elem .tr c l) :=
  ⟨valid_tr c l h, rfl⟩

theorem topRow_rows (o : Opts) (i : Info) : ∀ x ∈ topRow o i, Row x := by
  intro x hx
  rw [topRow, List.mem_singleton] at hx
  subst hx
  refine row_tr _ _ fun x hx => ?_
  rw [mem_one hx]
  refine ⟨valid_td _ _ fun y hy => ?_, rfl⟩
  rcases List.mem_cons.1 hy with rfl | hy
  · exact .text _
  · cases hb : o.bi <;> cases hi : i.id <;> simp [hb, hi] at hy
    rcases hy with rfl | rfl
    · exact .text _
    · exact valid_span _ _

theorem topFlow_rows (o : Opts) (i : Info) : ∀ x ∈ topFlow o i, Row x := by
  intro x hx
  rw [topFlow] at hx
  cases hb : o.bi <;> cases hi : i.id <;> simp [hb, hi] at hx
  subst hx
  refine row_tr _ _ fun x hx => ?_
  rw [mem_one hx]
  refine ⟨valid_td _ _ fun y hy => ?_, rfl⟩
  rw [mem_one hy]
  exact valid_span _ _

theorem bottomRow_rows (o : Opts) (i : Info) : ∀ x ∈ bottomRow o i, Row x := by
  intro x hx
  rw [bottomRow, List.mem_singleton] at hx
  subst hx
  refine row_tr _ _ fun x hx => ?_
  rw [mem_one hx]
  refine ⟨valid_td _ _ fun y hy => ?_, rfl⟩
  rcases List.mem_cons.1 hy with rfl | hy
  · exact .text _
  · cases hb : o.showSize <;> simp [hb] at hy
    rcases hy with rfl | rfl
    · exact .text _
    · exact valid_span _ _

theorem valid_frame (cls : String) (top bottom inner : List Tree) (ht : ∀ x ∈ top, Row x) (hb : ∀ x ∈ bottom, Row x)
    (hi : ∀ x ∈ inner, Row x) : Valid (frame cls top bottom inner) := by
  refine valid_table _ _ fun x hx => ?_
  simp only [List.mem_append, List.mem_singleton] at hx
  rcases hx with (hx | rfl) | hx
  · exact ht x hx
  · refine row_tr _ _ fun x hx => ?_
    rw [mem_one hx]
    refine ⟨valid_td _ _ fun y hy => ?_, rfl⟩
    rw [mem_one hy]
    exact valid_table _ _ hi
  · exact hb x hx

theorem row_name (s : String) : Row (.elem .tr "" [nameCell s]) := by
  refine row_tr _ _ fun x hx => ?_
  rw [mem_one hx]
  refine ⟨valid_td _ _ fun y hy => ?_, rfl⟩
  rw [mem_one hy]
  exact .text _

theorem row_cells (l : List Tree) (h : ∀ x ∈ l, Valid x) : Row (.elem .tr "" (l.map fun x => .elem .td "" [x])) := by
  refine row_tr _ _ fun x hx => ?_
  rw [List.mem_map] at hx
  obtain ⟨y, hy, rfl⟩ := hx
  exact ⟨valid_td _ _ fun z hz => by rw [mem_one hz]; exact h y hy, rfl⟩

theorem rows_cells (l : List Tree) (h : ∀ x ∈ l, Valid x) :
    ∀ x ∈ l.map (fun x => Tree.elem .tr "" [.elem .td "" [x]]), Row x := by
  intro x hx
  rw [List.mem_map] at hx
  obtain ⟨y, hy, rfl⟩ := hx
  exact row_cells [y] fun z hz => by rw [mem_one hz]; exact h y hy

mutual
theorem repsOk_pic (o : Opts) {x : Obj} (h : RepsOk x) : ∃ p, Pic o x p ∧ Valid p := by
  cases h with
  | leaf i r h =>
    refine ⟨_, .leaf i r, valid_frame _ _ _ _ (topRow_rows o i) (bottomRow_rows o i) fun x hx => ?_⟩
    simp only [List.mem_cons, List.not_mem_nil, or_false] at hx
    rcases hx with rfl | rfl
    · exact row_name _
    · exact row_tr _ _ fun x hx => by rw [mem_one hx]; exact ⟨valid_td _ _ h, rfl⟩
  | flow i l h =>
    obtain ⟨p, hp, hv⟩ := repssOk_pics o h
    exact ⟨_, .flow i l p hp, valid_frame _ _ _ _ (topFlow_rows o i) (by simp) (rows_cells p hv)⟩
  | layer i l h =>
    obtain ⟨p, hp, hv⟩ := repssOk_pics o h
    refine ⟨_, .layer i l p hp, valid_frame _ _ _ _ (topRow_rows o i) (bottomRow_rows o i) fun x hx => ?_⟩
    rw [mem_one hx]
    exact row_cells p hv
  | same i l h =>
    obtain ⟨p, hp, hv⟩ := repssOk_pics o h
    refine ⟨_, .same i l p hp, valid_frame _ _ _ _ (topRow_rows o i) (bottomRow_rows o i) fun x hx => ?_⟩
    simp only [List.mem_cons, List.not_mem_nil, or_false] at hx
    rcases hx with rfl | rfl
    · exact row_name _
    · exact row_cells p hv
  | clone i n u x h =>
    obtain ⟨p, hp, hv⟩ := repsOk_pic o h
    refine ⟨_, .clone i n u x p hp, valid_frame _ _ _ _ (topRow_rows o i) (bottomRow_rows o i) fun x hx => ?_⟩
    rw [mem_one hx]
    refine row_tr _ _ fun x hx => ?_
    simp only [List.mem_cons, List.not_mem_nil, or_false] at hx
    rcases hx with rfl | rfl
    · refine ⟨valid_td _ _ fun y hy => ?_, rfl⟩
      simp only [List.mem_cons, List.not_mem_nil, or_false] at hy
      rcases hy with rfl | rfl | rfl | rfl
      · exact .text _
      · exact .br
      · exact .br
      · exact .text _
    · exact ⟨valid_td _ _ fun y hy => by rw [mem_one hy]; exact hv, rfl⟩

theorem repssOk_pics (o : Opts) {l : List Obj} (h : RepssOk l) : ∃ p, Pics o l p ∧ ∀ x ∈ p, Valid x := by
  cases h with
  | nil => exact ⟨[], .nil, by simp⟩
  | cons x l h t =>
    obtain ⟨p, hp, hv⟩ := repsOk_pic o h
    obtain ⟨q, hq, hw⟩ := repssOk_pics o t
    exact ⟨p :: q, .cons x l p q hp hq, by simpa using ⟨hv, hw⟩⟩
end

mutual
theorem flat_nested (stack : List Tag) (t : Tree) (l : List Mark) : Nested stack (t.flat ++ l) ↔ Nested stack l := by
  cases t with
  | elem t c k =>
    simp only [Tree.flat, List.cons_append, List.append_assoc, Nested]
    rw [flats_nested (t :: stack) k]
    simp [Nested]
  | br => simp [Tree.flat, Nested]
  | text s => simp [Tree.flat, Nested]

theorem flats_nested (stack : List Tag) (k : List Tree) (l : List Mark) : Nested stack (flats k ++ l) ↔ Nested stack l := by
  cases k with
  | nil => simp [flats]
  | cons x k =>
    simp only [flats, List.append_assoc]
    rw [flat_nested stack x, flats_nested stack k]
end

theorem next_fail (a : List Mark) (b : Out) (h : b.2 = true) : (put a ⋙ b).2 = true := by simp [put, Out.next, h]

theorem fail_next (a b : Out) (h : a.2 = true) : (a ⋙ b).2 = true := by simp [Out.next, h]

theorem next_fail' (a b : Out) (h : b.2 = true) : (a ⋙ b).2 = true := by
  unfold Out.next; split <;> simp_all

mutual
theorem broken_fails (o : Opts) {x : Obj} (h : Broken x) : (visit o x).2 = true := by
  cases h with
  | leaf i => exact next_fail _ _ (fail_next _ _ rfl)
  | flow i l h => exact next_fail _ _ (fail_next _ _ (brokens_rows o h))
  | layer i l h => exact next_fail _ _ (fail_next _ _ (brokens_cells o h))
  | same i l h => exact next_fail _ _ (fail_next _ _ (brokens_cells o h))
  | clone i n u x h => exact next_fail _ _ (fail_next _ _ (broken_fails o h))

theorem brokens_rows (o : Opts) {l : List Obj} (h : Brokens l) : (visitRows o l).2 = true := by
  cases h with
  | head x l h => exact next_fail _ _ (fail_next _ _ (broken_fails o h))
  | tail x l h => exact next_fail _ _ (next_fail' _ _ (next_fail _ _ (brokens_rows o h)))

theorem brokens_cells (o : Opts) {l : List Obj} (h : Brokens l) : (visitCells o l).2 = true := by
  cases h with
  | head x l h => exact next_fail _ _ (fail_next _ _ (broken_fails o h))
  | tail x l h => exact next_fail _ _ (next_fail' _ _ (next_fail _ _ (brokens_cells o h)))
end

theorem convert_pic (o : Opts) {l : List Obj} {p : List Tree} (h : Pics o l p) :
    convertFlow o l = put (frame "flow" [] [] (p.map fun x => .elem .tr "" [.elem .td "" [x]])).flat := by
  have h1 : flats (topFlow o noInfo) = [] := by
    unfold topFlow noInfo; cases o.bi <;> rfl
  simp only [convertFlow, pics_rows o h, next_put, flat_frame, open_flow o noInfo "flow" (Or.inl rfl), header_flow,
    close_flow o noInfo "flow" (Or.inl rfl), h1]
  simp [flats]

/-! ## Theorems -/

/-- **C341.** For every flow, however deeply its layers and flow nodes are nested, the file is the page with the picture of
the flow: each node once, in the order of the flow, inside of the frame of the layer or flow it belongs to. -/
theorem show_flow_page (o : Opts) (title css : String) (l : List Obj) (p : List Tree) (h : Pics o l p) :
    showFlow o title css l = ((page title css p).flat, false) := by
  simp only [showFlow, convert_pic o h, next_put]
  simp [put, page, flats, Tree.flat]

/-- **C341.** If the representations of the single nodes are proper HTML, then so is the page: tags are closed in the
opposite order of their opening, tables consist of rows and rows of cells, and no exception is raised. -/
theorem show_flow_valid (o : Opts) (title css : String) (l : List Obj) (h : RepssOk l) :
    ∃ p, Pics o l p ∧ (∀ x ∈ p, Valid x) ∧ Valid (page title css p) ∧
      showFlow o title css l = ((page title css p).flat, false) ∧ Nested [] (showFlow o title css l).1 := by
  obtain ⟨p, hp, hv⟩ := repssOk_pics o h
  refine ⟨p, hp, hv, ?_, show_flow_page o title css l p hp, ?_⟩
  · have hf : Valid (frame "flow" [] [] (p.map fun x => .elem .tr "" [.elem .td "" [x]])) :=
      valid_frame _ _ _ _ (by simp) (by simp) (rows_cells p hv)
    have ht : ∀ (t : Tag) (c s : String), t ≠ .table → t ≠ .tr → Valid (.elem t c [.text s]) := fun t c s h1 h2 =>
      .elem _ _ _ (by intro x hx; rw [mem_one hx]; exact .text _) (fun h => absurd h h1) (fun h => absurd h h2)
    refine .elem _ _ _ (fun x hx => ?_) (by simp) (by simp)
    simp only [List.mem_cons, List.not_mem_nil, or_false] at hx
    rcases hx with rfl | rfl
    · refine .elem _ _ _ (fun x hx => ?_) (by simp) (by simp)
      simp only [List.mem_cons, List.not_mem_nil, or_false] at hx
      rcases hx with rfl | rfl
      · exact ht _ _ _ (by decide) (by decide)
      · exact ht _ _ _ (by decide) (by decide)
    · refine .elem _ _ _ (fun x hx => ?_) (by simp) (by simp)
      simp only [List.mem_cons, List.not_mem_nil, or_false] at hx
      rcases hx with rfl | rfl | rfl | rfl | rfl | rfl
      · exact ht _ _ _ (by decide) (by decide)
      · exact ht _ _ _ (by decide) (by decide)
      · exact .br
      · exact .br
      · exact .br
      · exact hf
  · rw [show_flow_page o title css l p hp]
    have := flat_nested [] (page title css p) []
    simpa [Nested] using this

/-- **C341.** If the representation of a single node anywhere in the flow raises, the whole picture fails, and the file
does not get its end. -/
theorem show_flow_refused (o : Opts) (title css : String) (l : List Obj) (h : Brokens l) :
    (showFlow o title css l).2 = true :=
  next_fail _ _ (fail_next _ _ (next_fail _ _ (fail_next _ _ (brokens_rows o h))))

/-! ## The representations of switchboards -/

/-- The attributes of an object: values are pairs of numbers or numbers. -/
abbrev Attrs := List (String × (Nat × Nat))

def Attrs.get (a : Attrs) (s : String) : Option (Nat × Nat) := a.lookup s

/-- The attributes which the constructor of `DoubleRect2dSwitchboard` sets (numbers as pairs with second component 0), for
the values `inXY`, `fieldXY`, `spacing`, `long`, `unused`, `dim`, `n`; the other attributes are those of each `Node`.
/repo/mdp/hinet/switchboard.py 395-497. -/
def doubleRectAttrs (inXY fieldXY spacing long unused : Nat × Nat) (dim n : Nat) : Attrs :=
  [("in_channels_xy", inXY), ("field_channels_xy", fieldXY), ("field_spacing_xy", spacing),
   ("long_out_channels_xy", long), ("unused_channels_xy", unused), ("in_channel_dim", (dim, 0)),
   ("output_channels", (n, 0))]

def pairStr (p : Nat × Nat) : String := "(" ++ toString p.1 ++ ", " ++ toString p.2 ++ ")"

/-- `_double_rect2d_switchoard_html`; `none`: AttributeError.  The first four lines are not told apart.
/repo/mdp/hinet/htmlvisitor.py 235-248. -/
def doubleRectHtml (a : Attrs) : Option (List String) :=
  match a.get "field_channels_xy", a.get "long_out_channels_xy", a.get "output_channels", a.get "in_channel_dim" with
  | some f, some l, some n, some d =>
    let lines := ["rec. field size (in channels): " ++ pairStr f,
      "# of long row rec. fields (out channels): " ++ pairStr l,
      "total number of receptive fields: " ++ toString n.1, "channel width: " ++ toString d.1]
    match a.get "x_unused_channels" with
    | none => none
    | some x =>
      if x.1 ≠ 0 then (a.get "unused_channels_xy").map fun u => lines ++ ["unused channels: " ++ pairStr u]
      else match a.get "y_unused_channels" with
        | none => none
        | some y =>
          if y.1 ≠ 0 then (a.get "unused_channels_xy").map fun u => lines ++ ["unused channels: " ++ pairStr u]
          else some lines
  | _, _, _, _ => none

/-- The last line of `_rect2d_switchoard_html`. /repo/mdp/hinet/htmlvisitor.py 231-233. -/
def rectUnusedLine (unused : Nat × Nat) : List String :=
  if !(unused.1 ≠ 0 && unused.2 ≠ 0) then ["unused channels: " ++ pairStr unused] else []

/-- `html_representation` for a list of lines. /repo/mdp/hinet/htmlvisitor.py 202-208. -/
def joinLines : List String → List Mark
  | [] => []
  | [s] => [.text s]
  | s :: l => .text (s ++ " ") :: .br :: joinLines l

/-- **C342.** No `DoubleRect2dSwitchboard` can be shown: the method reads an attribute that no such object has, so every
flow that contains one, at any depth, has no picture. -/
theorem double_rect_violation (inXY fieldXY spacing long unused : Nat × Nat) (dim n : Nat) (o : Opts) (i : Info)
    (title css : String) (a b : List Obj) :
    doubleRectHtml (doubleRectAttrs inXY fieldXY spacing long unused dim n) = none ∧
    (showFlow o title css (a ++ .leaf i ((doubleRectHtml
      (doubleRectAttrs inXY fieldXY spacing long unused dim n)).map joinLines) :: b)).2 = true := by
  have h1 : doubleRectHtml (doubleRectAttrs inXY fieldXY spacing long unused dim n) = none := by
    simp [doubleRectHtml, doubleRectAttrs, Attrs.get, List.lookup]
  refine ⟨h1, ?_⟩
  rw [h1]
  refine show_flow_refused o title css _ ?_
  induction a with
  | nil => exact .head _ _ (.leaf i)
  | cons x l ih => exact .tail _ _ ih

/-- The line is shown exactly if channels are unused. -/
def RectLineRight : Prop := ∀ u : Nat × Nat, rectUnusedLine u ≠ [] ↔ (u.1 ≠ 0 ∨ u.2 ≠ 0)

/-- **C342.** The line on unused channels of a `Rectangular2dSwitchboard` is shown unless channels are unused in both
directions: it appears if none is unused and is missing if some are unused in each direction. -/
theorem rect_line_violation : ¬ RectLineRight ∧ rectUnusedLine (0, 0) = ["unused channels: (0, 0)"] ∧
    rectUnusedLine (1, 2) = [] := by
  refine ⟨fun h => ?_, by decide +kernel, by decide +kernel⟩
  have := (h (0, 0)).1 (by simp [rectUnusedLine])
  simp at this

/-- **C342.** What holds: if channels are unused in exactly one direction, the line is there. -/
theorem rect_line_partial (u : Nat × Nat) (h : (u.1 ≠ 0) ≠ (u.2 ≠ 0)) :
    rectUnusedLine u = ["unused channels: " ++ pairStr u] := by
  unfold rectUnusedLine
  by_cases h1 : u.1 = 0 <;> by_cases h2 : u.2 = 0 <;> simp_all

/-- The picture of a flow tells whether a `CloneBiLayer` uses copies. -/
def ShowsUseCopies (o : Opts) : Prop := ∀ (i : Info) (n : Nat) (u u' : Option Bool) (x : Obj),
  convertFlow o [.clone i n u x] = convertFlow o [.clone i n u' x] → u = u'

/-- **C342.** The bidirectional visitor was meant to show for a `CloneBiLayer` whether it uses copies; its method has a name
that nothing calls, so the picture does not depend on it. -/
theorem use_copies_violation (o : Opts) : ¬ ShowsUseCopies o ∧
    ∀ (i : Info) (n : Nat) (u u' : Option Bool) (x : Obj), visit o (.clone i n u x) = visit o (.clone i n u' x) := by
  have h : ∀ (i : Info) (n : Nat) (u u' : Option Bool) (x : Obj), visit o (.clone i n u x) = visit o (.clone i n u' x) :=
    fun _ _ _ _ _ => by simp only [visit]
  refine ⟨fun hs => ?_, h⟩
  have := hs noInfo 1 (some true) (some false) (.leaf noInfo none)
    (by simp only [convertFlow, visitRows]; rw [h noInfo 1 (some true) (some false)])
  cases this

/-! ## Cases that meet the hypotheses -/

def exLeaf (s : String) : Obj := .leaf ⟨s, some 4, some 2, "1.0K", none⟩ (some (joinLines ["a", "b"]))

theorem exLeaf_ok (s : String) : RepsOk (exLeaf s) := by
  have : joinLines ["a", "b"] = flats [.text "a ", .br, .text "b"] := by decide +kernel
  unfold exLeaf; rw [this]
  refine .leaf _ _ fun t ht => ?_
  simp only [List.mem_cons, List.not_mem_nil, or_false] at ht
  rcases ht with rfl | rfl | rfl
  · exact .text _
  · exact .br
  · exact .text _

/-- A flow of a switchboard, a clone layer of flow nodes and a layer. -/
def exFlow : List Obj :=
  [exLeaf "Switchboard", .clone ⟨"CloneLayer", some 4, some 2, "", some "x"⟩ 3 none (.flow noInfo [exLeaf "PCANode", exLeaf "SFANode"]),
   .layer noInfo [exLeaf "A", .same ⟨"SameInputLayer", none, none, "", none⟩ [exLeaf "B", exLeaf "C"]]]

example : RepssOk exFlow :=
  .cons _ _ (exLeaf_ok _) (.cons _ _ (.clone _ _ _ _ (.flow _ _ (.cons _ _ (exLeaf_ok _) (.cons _ _ (exLeaf_ok _) .nil))))
    (.cons _ _ (.layer _ _ (.cons _ _ (exLeaf_ok _) (.cons _ _ (.same _ _ (.cons _ _ (exLeaf_ok _)
      (.cons _ _ (exLeaf_ok _) .nil))) .nil))) .nil))

example : 200 < (showFlow ⟨true, true⟩ "t" "" exFlow).1.length := by decide +kernel

example : Brokens [exLeaf "A", .layer noInfo [.leaf noInfo none]] := .tail _ _ (.head _ _ (.layer _ _ (.head _ _ (.leaf _))))

example : ¬ Nested [] (showFlow ⟨false, false⟩ "t" "" [.leaf noInfo none]).1 := by
  simp [showFlow, convertFlow, visitRows, visit, put, Out.next, openEnv, header, Nested]

example : ((1, 0) : Nat × Nat).1 ≠ 0 ∧ ((1, 0) : Nat × Nat).2 = 0 := by decide

end Mdp.Html
