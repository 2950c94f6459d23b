import Verif.Parallel.PPSlaves
import Mathlib.Data.List.Nodup
import Mathlib.Tactic.Common

/-!
# The slides of an inspection

Models the slide files of `InspectionHTMLTracer` (`bimdp/inspection/tracer.py` 103-257, 259-280; the part of
`_trace_biflow_training`, 834-895, that names the traces) and the function of the slideshow page that shows them
(`getBody` in `js_loadhtml_template`, `bimdp/inspection/slideshow.py` 88-109).

What the converter writes into a slide is an arbitrary text. `toLowerCase` is modelled for ASCII letters (JavaScript
changes the length of the text for a few other characters). Texts of JavaScript are lists of characters.
-/

namespace Mdp.Bi.Slides

open Mdp.PPSlaves (dec)

abbrev Text := List Char

/-- The result of `write` on a `NewlineWriteFile` (`mdp/hinet/htmlvisitor.py` 34-36). -/
def line (s : Text) : Text := s ++ ['\n']

/-- What `_begin_HTML_frame` writes (lines 267-273), before `css_filename` is looked at. -/
def head0 : Text := line ['<', 'h', 't', 'm', 'l', '>', '\n', '<', 'h', 'e', 'a', 'd', '>', '\n', '<', 't', 'i', 't', 'l', 'e', '>',
  'I', 'n', 's', 'p', 'e', 'c', 't', 'i', 'o', 'n', ' ', 'S', 'l', 'i', 'd', 'e', '<', '/', 't', 'i', 't', 'l', 'e', '>']

/-- The text before the name of the style file. -/
def style1 : Text := line ['<', 's', 't', 'y', 'l', 'e', ' ', 't', 'y', 'p', 'e', '=', '"', 't', 'e', 'x', 't', '/', 'c', 's', 's', '"', ' ',
  'm', 'e', 'd', 'i', 'a', '=', '"', 's', 'c', 'r', 'e', 'e', 'n', '"', '>'] ++ ['@', 'i', 'm', 'p', 'o', 'r', 't', ' ', 'u', 'r', 'l', '(', '"']

/-- The text after it, up to the body. -/
def style2 : Text := line ['"', ')', ';'] ++ ['<', '/', 's', 't', 'y', 'l', 'e', '>', '\n', '<', '/', 'h', 'e', 'a', 'd', '>', '\n']

def bodyTag : Text := ['<', 'b', 'o', 'd', 'y', '>']

/-- `_begin_HTML_frame` (lines 267-273). -/
def header (css : Text) : Text :=
  if css = [] then head0 else head0 ++ (style1 ++ (css ++ (style2 ++ line bodyTag)))

/-- `_end_HTML_frame` (line 280). -/
def footer : Text := line ['<', '/', 'b', 'o', 'd', 'y', '>', '\n', '<', '/', 'h', 't', 'm', 'l', '>']

/-- A slide file. -/
def page (css body : Text) : Text := header css ++ (body ++ footer)

/-- `s.indexOf(p)` (`none`: -1). -/
def indexOf (p : Text) : Text → Option Nat
  | [] => if p = [] then some 0 else none
  | c :: s => if p.isPrefixOf (c :: s) then some 0 else (indexOf p s).map (· + 1)

/-- `s.lastIndexOf(p)`. -/
def lastIndexOf (p : Text) : Text → Option Nat
  | [] => if p = [] then some 0 else none
  | c :: s => match lastIndexOf p s with
    | some i => some (i + 1)
    | none => if p.isPrefixOf (c :: s) then some 0 else none

/-- `getBody(content)` (slideshow.py 88-109). -/
def getBody (content : Text) : Text :=
  let low := content.map Char.toLower
  match indexOf ['<', 'b', 'o', 'd', 'y'] low with
  | none => []
  | some i => match indexOf ['>'] (low.drop i) with
    | none => []
    | some j =>
      let e := match lastIndexOf ['<', '/', 'b', 'o', 'd', 'y', '>'] low with
        | some e => e
        | none => match lastIndexOf ['<', '/', 'h', 't', 'm', 'l', '>'] low with
          | some e => e
          | none => content.length
      (content.drop (i + j + 1)).take (e - (i + j + 1))

/-- What the converter gives for a call of a traced method (lines 238-246): the text it writes, the id of the node, the
id of the section. -/
structure Call where
  body : Text
  node : Text
  sect : Option Text

/-- The state of the tracer (lines 98-113) and the files in the directory. -/
structure Tr where
  index : Nat := 0
  names : List Text := []
  nodes : List Text := []
  sects : List Text := []
  files : Text → Option Text

def write (f : Text → Option Text) (n t : Text) : Text → Option Text := fun m => if m = n then some t else f m

/-- `self._trace_name + "_%d.html" % self._slide_index` (line 265). -/
def fileName (name : Text) (i : Nat) : Text := name ++ '_' :: (dec i ++ ['.', 'h', 't', 'm', 'l'])

/-- `_tracer_callback` (lines 226-257). -/
def callback (css name : Text) (t : Tr) (c : Call) : Tr :=
  { index := t.index + 1
    names := t.names ++ [fileName name t.index]
    nodes := t.nodes ++ [c.node]
    sects := t.sects ++ c.sect.toList
    files := write t.files (fileName name t.index) (page css c.body) }

/-- `_reset` (lines 103-113). -/
def reset (f : Text → Option Text) : Tr := { files := f }

/-- The calls between two resets. -/
def run (css name : Text) (f : Text → Option Text) (l : List Call) : Tr := l.foldl (callback css name) (reset f)

/-- `trace_training` (lines 127-168) for a training that does not raise, with the calls of traced methods in `train` and in
`stop_training`: names and node ids for both, and the files. -/
def traceTraining (css name : Text) (f : Text → Option Text) (train stop : List Call) : (List Text × List Text) × (List Text × List Text) × (Text → Option Text) :=
  let t := run css (name ++ ['_', 't']) f train
  let s := run css (name ++ ['_', 's']) t.files stop
  ((t.names, t.nodes), (s.names, s.nodes), s.files)

/-- `trace_execution` (lines 170-224) for an execution that does not raise; `none`: the exception of line 221. -/
def traceExecution (css name : Text) (f : Text → Option Text) (l : List Call) :
    Option (List Text × List Text × Option (List Text)) × (Text → Option Text) :=
  let t := run css name f l
  if t.sects = [] then (some (t.names, t.nodes, none), t.files)
  else if t.sects.length ≠ t.names.length then (none, t.files)
  else (some (t.names, t.nodes, some t.sects), t.files)

/-- The trace of a snapshot: the number of the node in training and the calls. -/
structure Snap where
  node : Nat
  train : List Call
  stop : List Call

/-- The loop of `_trace_biflow_training` (lines 863-880) from snapshot `k` on. -/
def traceAll (css : Text) : Nat → (Text → Option Text) → List Snap → List Text × List Text × (Text → Option Text)
  | _, f, [] => ([], [], f)
  | k, f, s :: r =>
    let t := traceTraining css (dec k ++ '_' :: dec s.node) f s.train s.stop
    let q := traceAll css (k + 1) t.2.2 r
    (t.1.1 ++ t.2.1.1 ++ q.1, t.1.2 ++ t.2.1.2 ++ q.2.1, q.2.2)

/-! ### What a slide shows -/

/-- No occurrence of `p` begins in `a`, whatever follows. -/
def Skips (p a : Text) : Prop := ∀ i < a.length, ¬ p <+: a.drop i ∧ ¬ a.drop i <+: p

instance (p a : Text) : Decidable (Skips p a) := by unfold Skips; infer_instance

theorem indexOf_skip (p : Text) : ∀ (a s : Text), Skips p a → indexOf p (a ++ s) = (indexOf p s).map (· + a.length) := by
  intro a
  induction a with
  | nil => intro s _; simp
  | cons c a ih =>
    intro s h
    have h0 := h 0 (by simp)
    simp only [List.drop_zero] at h0
    have hn : ¬ p.isPrefixOf (c :: (a ++ s)) = true := by
      rw [List.isPrefixOf_iff_prefix]
      intro hp
      rcases List.prefix_or_prefix_of_prefix hp (List.prefix_append (c :: a) s) with q | q
      · exact h0.1 q
      · exact h0.2 q
    have ha : Skips p a := by
      intro i hi
      have := h (i + 1) (by simp; omega)
      simpa using this
    rw [List.cons_append, indexOf, if_neg hn, ih s ha]
    cases indexOf p s with
    | none => rfl
    | some j => simp; omega

theorem skips_append {p a b : Text} (ha : ∀ c ∈ a, ∀ q, p ≠ c :: q) (hp : p ≠ []) : Skips p a := by
  intro i hi
  obtain ⟨c, r, hc⟩ : ∃ c r, a.drop i = c :: r := by
    cases h : a.drop i with
    | nil => rw [List.drop_eq_nil_iff] at h; omega
    | cons c r => exact ⟨c, r, rfl⟩
  have hm : c ∈ a := List.mem_of_mem_drop (by rw [hc]; simp)
  rw [hc]
  constructor
  · rintro ⟨t, ht⟩
    cases p with
    | nil => exact hp rfl
    | cons x p =>
      simp only [List.cons_append, List.cons.injEq] at ht
      exact ha c hm p (by rw [ht.1])
  · rintro ⟨t, ht⟩
    exact ha c hm (r ++ t) (by rw [← ht]; rfl)

theorem lastIndexOf_append (p : Text) {s : Text} {i : Nat} (h : lastIndexOf p s = some i) :
    ∀ a : Text, lastIndexOf p (a ++ s) = some (a.length + i) := by
  intro a
  induction a with
  | nil => simpa using h
  | cons c a ih =>
    rw [List.cons_append, lastIndexOf, ih]
    simp
    omega

theorem toLower_lt {c : Char} (h : c ≠ '<') : c.toLower ≠ '<' := by
  unfold Char.toLower
  split
  · rename_i hc
    intro he
    obtain ⟨h1, h2⟩ := hc
    have g1 : (65 : Nat) ≤ c.val.toNat := h1
    have g2 : c.val.toNat ≤ 90 := h2
    have g4 : (c.val + 32).toNat = 60 := congrArg (fun x : Char => x.val.toNat) he
    have g3 : (c.val + 32).toNat = c.val.toNat + 32 := by
      rw [UInt32.toNat_add]
      have : (32 : UInt32).toNat = 32 := rfl
      omega
    omega
  · exact h

/-- **A slide shows exactly what the converter wrote** (after a newline), for all texts. -/
theorem getBody_page (css body : Text) (h : css ≠ []) (hc : '<' ∉ css) : getBody (page css body) = '\n' :: body := by
  obtain ⟨low, hlow⟩ : ∃ low, low = (page css body).map Char.toLower := ⟨_, rfl⟩
  obtain ⟨pre, hpre⟩ : ∃ pre : Text, pre = head0 ++ (style1 ++ (css ++ style2)) := ⟨_, rfl⟩
  have hpage : page css body = pre ++ (line bodyTag ++ (body ++ footer)) := by
    rw [hpre, page, header, if_neg h]
    simp only [List.append_assoc]
  have hl : low = pre.map Char.toLower ++ (line bodyTag ++ (body.map Char.toLower ++ footer)) := by
    rw [hlow, hpage]
    simp only [List.map_append]
    rfl
  have hi : indexOf ['<', 'b', 'o', 'd', 'y'] low = some pre.length := by
    have e : low = head0.map Char.toLower ++ (style1.map Char.toLower ++ (css.map Char.toLower ++ (style2.map Char.toLower ++
        (line bodyTag ++ (body.map Char.toLower ++ footer))))) := by
      rw [hl, hpre]
      simp only [List.map_append, List.append_assoc]
    have hcss : Skips ['<', 'b', 'o', 'd', 'y'] (css.map Char.toLower) := by
      refine skips_append (b := []) ?_ (by simp)
      intro c hcm q hq
      obtain ⟨d, hd, rfl⟩ := List.mem_map.1 hcm
      have : d ≠ '<' := fun q => hc (q ▸ hd)
      injection hq with hq _
      exact toLower_lt this hq.symm
    have hlast : ∀ z : Text, indexOf ['<', 'b', 'o', 'd', 'y'] (line bodyTag ++ z) = some 0 := fun z => by
      simp [line, bodyTag, indexOf]
    rw [e, indexOf_skip _ _ _ (by decide +kernel), indexOf_skip _ _ _ (by decide +kernel), indexOf_skip _ _ _ hcss,
      indexOf_skip _ _ _ (by decide +kernel), hlast, hpre]
    simp only [Option.map_some, List.length_map, List.length_append]
    congr 1
    omega
  have hj : indexOf ['>'] (low.drop pre.length) = some 5 := by
    have : low.drop pre.length = line bodyTag ++ (body.map Char.toLower ++ footer) := by
      rw [hl]
      have := List.drop_left (l₁ := pre.map Char.toLower) (l₂ := line bodyTag ++ (body.map Char.toLower ++ footer))
      rwa [List.length_map] at this
    rw [this]
    simp [line, bodyTag, indexOf]
  have he : lastIndexOf ['<', '/', 'b', 'o', 'd', 'y', '>'] low = some (pre.length + 7 + body.length) := by
    have e : low = (pre.map Char.toLower ++ (line bodyTag ++ body.map Char.toLower)) ++ footer := by
      rw [hl]
      simp only [List.append_assoc]
    rw [e, lastIndexOf_append _ (i := 0) (by decide +kernel)]
    simp [line, bodyTag]
    omega
  unfold getBody
  simp only [← hlow, hi, hj, he]
  rw [hpage]
  have e1 : (pre ++ (line bodyTag ++ (body ++ footer))).drop (pre.length + 5 + 1) = '\n' :: (body ++ footer) := by
    rw [Nat.add_assoc, List.drop_append]
    simp [line, bodyTag]
  rw [e1]
  have e2 : pre.length + 7 + body.length - (pre.length + 5 + 1) = body.length + 1 := by omega
  rw [e2]
  simp

/-- **Without a style file nothing is shown**: the file has no beginning of a body. -/
theorem no_css_violation (body : Text) (hb : '<' ∉ body) : getBody (page [] body) = [] := by
  have e : (page [] body).map Char.toLower = head0.map Char.toLower ++ (body.map Char.toLower ++ footer) := by
    simp only [page, header, if_true, List.map_append]
    rfl
  have hbody : Skips ['<', 'b', 'o', 'd', 'y'] (body.map Char.toLower) := by
    refine skips_append (b := []) ?_ (by simp)
    intro c hcm q hq
    obtain ⟨d, hd, rfl⟩ := List.mem_map.1 hcm
    have : d ≠ '<' := fun q => hb (q ▸ hd)
    injection hq with hq _
    exact toLower_lt this hq.symm
  have hf : indexOf ['<', 'b', 'o', 'd', 'y'] footer = none := by decide +kernel
  unfold getBody
  simp only [e]
  rw [indexOf_skip _ _ _ (by decide +kernel), indexOf_skip _ _ _ hbody, hf]
  rfl

/-! ### Files -/

theorem run_spec (css name : Text) : ∀ (l : List Call) (t : Tr),
    (l.foldl (callback css name) t).index = t.index + l.length ∧
    (l.foldl (callback css name) t).names = t.names ++ (List.range l.length).map (fun i => fileName name (t.index + i)) ∧
    (l.foldl (callback css name) t).nodes = t.nodes ++ l.map Call.node ∧
    (l.foldl (callback css name) t).sects = t.sects ++ l.filterMap Call.sect ∧
    (l.foldl (callback css name) t).files = (l.zipIdx t.index).foldl (fun f x => write f (fileName name x.2) (page css x.1.body)) t.files := by
  intro l
  induction l with
  | nil => intro t; simp
  | cons c l ih =>
    intro t
    obtain ⟨h1, h2, h3, h4, h5⟩ := ih (callback css name t c)
    rw [List.foldl_cons]
    refine ⟨?_, ?_, ?_, ?_, ?_⟩
    · rw [h1]; simp [callback]; omega
    · rw [h2, List.length_cons, List.range_succ_eq_map]
      simp only [callback, List.append_assoc, List.singleton_append, List.map_cons, List.map_map, Nat.add_zero]
      congr 2
      apply List.map_congr_left
      intro i _
      simp only [Function.comp]
      congr 1
      omega
    · rw [h3]; simp [callback]
    · rw [h4]
      cases hs : c.sect <;> simp [callback, hs]
    · rw [h5]; rfl

/-- Pairs of names and texts, written one after the other. -/
def writes (f : Text → Option Text) (l : List (Text × Text)) : Text → Option Text := l.foldl (fun f x => write f x.1 x.2) f

theorem writes_other (l : List (Text × Text)) : ∀ (f : Text → Option Text) (n : Text), n ∉ l.map Prod.fst → writes f l n = f n := by
  induction l with
  | nil => intro f n _; rfl
  | cons x l ih =>
    intro f n hn
    simp only [List.map_cons, List.mem_cons, not_or] at hn
    have := ih (write f x.1 x.2) n hn.2
    unfold writes at this ⊢
    rw [List.foldl_cons, this, write, if_neg hn.1]

theorem writes_mem (l : List (Text × Text)) : ∀ (f : Text → Option Text), (l.map Prod.fst).Nodup →
    ∀ x ∈ l, writes f l x.1 = some x.2 := by
  induction l with
  | nil => intro f _ x hx; cases hx
  | cons y l ih =>
    intro f hn x hx
    simp only [List.map_cons, List.nodup_cons] at hn
    rcases List.mem_cons.1 hx with rfl | hx
    · have := writes_other l (write f x.1 x.2) x.1 hn.1
      unfold writes at this ⊢
      rw [List.foldl_cons, this, write, if_pos rfl]
    · exact ih (write f y.1 y.2) hn.2 x hx

/-- The files written by a trace. -/
def pairs (css name : Text) (l : List Call) : List (Text × Text) :=
  l.zipIdx.map fun x => (fileName name x.2, page css x.1.body)

theorem pairs_names (css name : Text) (l : List Call) :
    (pairs css name l).map Prod.fst = (List.range l.length).map (fileName name) := by
  unfold pairs
  rw [List.map_map]
  have : (Prod.fst ∘ fun x : Call × Nat => (fileName name x.2, page css x.1.body)) = fileName name ∘ Prod.snd := rfl
  rw [this, ← List.map_map, List.zipIdx_map_snd, List.range_eq_range']

theorem run_eq (css name : Text) (f : Text → Option Text) (l : List Call) :
    (run css name f l).names = (pairs css name l).map Prod.fst ∧ (run css name f l).nodes = l.map Call.node ∧
    (run css name f l).sects = l.filterMap Call.sect ∧ (run css name f l).files = writes f (pairs css name l) := by
  obtain ⟨_, h2, h3, h4, h5⟩ := run_spec css name l (reset f)
  refine ⟨?_, ?_, ?_, ?_⟩
  · unfold run
    rw [h2, pairs_names]
    simp only [reset, List.nil_append, Nat.zero_add]
  · unfold run
    rw [h3]; rfl
  · unfold run
    rw [h4]; rfl
  · unfold run
    rw [h5]
    unfold writes pairs
    rw [List.foldl_map]
    rfl

theorem dec_inj {i j : Nat} (h : dec (i : Int) = dec (j : Int)) : i = j := by
  have hp : ∀ n : Nat, PPSlaves.parseInt (dec (n : Int)) = some (n : Int) := fun n => by
    simpa using PPSlaves.parseInt_dec (n : Int) [] (.inl rfl)
  have := hp i
  rw [h, hp j] at this
  injection this with this
  exact (Int.ofNat.inj this).symm

theorem dec_no_underscore (i : Nat) : '_' ∉ dec (i : Int) := by
  intro h
  have := (PPSlaves.dec_chars (i : Int)).1
  rw [List.all_eq_true] at this
  exact absurd (this '_' h) (by decide)

theorem fileName_inj {name : Text} {i j : Nat} (h : fileName name i = fileName name j) : i = j := by
  unfold fileName at h
  have h1 := List.append_cancel_left h
  injection h1 with _ h2
  exact dec_inj (List.append_cancel_right h2)

theorem pairs_nodup (css name : Text) (l : List Call) : ((pairs css name l).map Prod.fst).Nodup := by
  rw [pairs_names]
  exact (List.nodup_range).map fun i j h => fileName_inj h

/-- **The slides of an execution**: one file for each call, with different names, in the order of the calls, each showing
what was written for its call; no other file changes. The node ids belong to the slides, and so do the section ids, if all
slides or none have one. -/
theorem execution_slides (css name : Text) (h : css ≠ []) (hc : '<' ∉ css) (f : Text → Option Text) (l : List Call)
    (hs : (∀ c ∈ l, c.sect = none) ∨ ∀ c ∈ l, c.sect.isSome) :
    ∃ names sects, (traceExecution css name f l).1 = some (names, l.map Call.node, sects) ∧
      names.Nodup ∧ names.length = l.length ∧
      (∀ (i : Nat) (c : Call), l[i]? = some c → ∃ n t, names[i]? = some n ∧ (traceExecution css name f l).2 n = some t ∧
        getBody t = '\n' :: c.body) ∧
      (∀ n, n ∉ names → (traceExecution css name f l).2 n = f n) ∧
      (∀ ss, sects = some ss → ss.map some = l.map Call.sect) := by
  obtain ⟨e1, e2, e3, e4⟩ := run_eq css name f l
  have hfiles : (traceExecution css name f l).2 = writes f (pairs css name l) := by
    rw [← e4]
    unfold traceExecution
    simp only
    split
    · rfl
    · split <;> rfl
  have hlen : ((pairs css name l).map Prod.fst).length = l.length := by simp [pairs]
  have key : ∃ sects, (traceExecution css name f l).1 = some ((pairs css name l).map Prod.fst, l.map Call.node, sects) ∧
      ∀ ss, sects = some ss → ss.map some = l.map Call.sect := by
    unfold traceExecution
    simp only [e1, e2, e3]
    by_cases h0 : l.filterMap Call.sect = []
    · rw [if_pos h0]
      exact ⟨none, rfl, by simp⟩
    · rw [if_neg h0]
      have hall : ∀ c ∈ l, c.sect.isSome := by
        rcases hs with hs | hs
        · exfalso
          apply h0
          rw [List.filterMap_eq_nil_iff]
          exact hs
        · exact hs
      have hm : ∀ l : List Call, (∀ c ∈ l, c.sect.isSome) → (l.filterMap Call.sect).map some = l.map Call.sect := by
        intro l
        induction l with
        | nil => intro _; rfl
        | cons c l ih =>
          intro hl
          obtain ⟨s, hs⟩ := Option.isSome_iff_exists.1 (hl c (by simp))
          simp [hs, ih fun d hd => hl d (by simp [hd])]
      have hl2 : ¬ (l.filterMap Call.sect).length ≠ ((pairs css name l).map Prod.fst).length := by
        rw [hlen]
        have := congrArg List.length (hm l hall)
        rw [List.length_map, List.length_map] at this
        exact not_not.2 this
      rw [if_neg hl2]
      exact ⟨_, rfl, by rintro ss ⟨⟩; exact hm l hall⟩
  obtain ⟨sects, k1, k2⟩ := key
  refine ⟨_, sects, k1, pairs_nodup css name l, hlen, ?_, ?_, k2⟩
  · intro i c hi
    have hx : (pairs css name l)[i]? = some (fileName name i, page css c.body) := by
      unfold pairs
      rw [List.getElem?_map, List.getElem?_zipIdx, hi]
      simp
    refine ⟨fileName name i, page css c.body, by rw [List.getElem?_map, hx]; rfl, ?_, getBody_page css c.body h hc⟩
    rw [hfiles]
    exact writes_mem _ f (pairs_nodup css name l) _ (List.mem_of_getElem? hx)
  · intro n hn
    rw [hfiles]
    exact writes_other _ f n hn

/-- **Some slides with a section**, some without: an exception, after the execution. -/
theorem execution_sections_refused (css name : Text) (f : Text → Option Text) (l : List Call)
    (h1 : ∃ c ∈ l, c.sect = none) (h2 : ∃ c ∈ l, c.sect.isSome) : (traceExecution css name f l).1 = none := by
  obtain ⟨e1, e2, e3, e4⟩ := run_eq css name f l
  unfold traceExecution
  simp only [e1, e2, e3]
  have h0 : l.filterMap Call.sect ≠ [] := by
    intro h
    rw [List.filterMap_eq_nil_iff] at h
    obtain ⟨c, hc, hs⟩ := h2
    rw [h c hc] at hs
    cases hs
  have hlt : ∀ l : List Call, (∃ c ∈ l, c.sect = none) → (l.filterMap Call.sect).length < l.length := by
    intro l
    induction l with
    | nil => rintro ⟨c, hc, _⟩; cases hc
    | cons c l ih =>
      rintro ⟨d, hd, hs⟩
      have hle := List.length_filterMap_le Call.sect l
      cases hcs : c.sect with
      | none => simp [hcs]; omega
      | some s =>
        rcases List.mem_cons.1 hd with rfl | hd
        · rw [hcs] at hs; cases hs
        · have := ih ⟨d, hd, hs⟩
          rw [List.filterMap_cons_some hcs, List.length_cons, List.length_cons]
          omega
  have := hlt l h1
  have hlen : ((pairs css name l).map Prod.fst).length = l.length := by simp [pairs]
  rw [if_neg h0, if_pos (by rw [hlen]; omega)]

/-! ### Training -/

/-- The calls of all traces in order. -/
def allCalls (ss : List Snap) : List Call := ss.flatMap fun s => s.train ++ s.stop

/-- All files written for the snapshots from number `k` on. -/
def allPairs (css : Text) : Nat → List Snap → List (Text × Text)
  | _, [] => []
  | k, s :: r => pairs css (dec (k : Int) ++ '_' :: dec (s.node : Int) ++ ['_', 't']) s.train ++
      pairs css (dec (k : Int) ++ '_' :: dec (s.node : Int) ++ ['_', 's']) s.stop ++ allPairs css (k + 1) r

theorem traceAll_eq (css : Text) : ∀ (ss : List Snap) (k : Nat) (f : Text → Option Text),
    (traceAll css k f ss).1 = (allPairs css k ss).map Prod.fst ∧
    (traceAll css k f ss).2.1 = (allCalls ss).map Call.node ∧
    (traceAll css k f ss).2.2 = writes f (allPairs css k ss) := by
  intro ss
  induction ss with
  | nil => intro k f; exact ⟨rfl, rfl, rfl⟩
  | cons s r ih =>
    intro k f
    simp only [traceAll, traceTraining]
    obtain ⟨a1, a2, _, a4⟩ := run_eq css (dec (k : Int) ++ '_' :: dec (s.node : Int) ++ ['_', 't']) f s.train
    obtain ⟨b1, b2, _, b4⟩ := run_eq css (dec (k : Int) ++ '_' :: dec (s.node : Int) ++ ['_', 's'])
      (run css (dec (k : Int) ++ '_' :: dec (s.node : Int) ++ ['_', 't']) f s.train).files s.stop
    obtain ⟨c1, c2, c3⟩ := ih (k + 1) (run css (dec (k : Int) ++ '_' :: dec (s.node : Int) ++ ['_', 's'])
      (run css (dec (k : Int) ++ '_' :: dec (s.node : Int) ++ ['_', 't']) f s.train).files s.stop).files
    refine ⟨?_, ?_, ?_⟩
    · rw [a1, b1, c1]; simp [allPairs]
    · rw [a2, b2, c2]; simp [allCalls]
    · rw [c3, b4, a4]
      simp only [writes, allPairs, List.foldl_append]

theorem first_part {a b r r' : Text} (ha : '_' ∉ a) (hb : '_' ∉ b) (h : a ++ '_' :: r = b ++ '_' :: r') : a = b := by
  induction a generalizing b with
  | nil =>
    cases b with
    | nil => rfl
    | cons y b =>
      simp only [List.nil_append, List.cons_append, List.cons.injEq] at h
      exact absurd (by rw [← h.1]; simp) hb
  | cons x a ih =>
    cases b with
    | nil =>
      simp only [List.nil_append, List.cons_append, List.cons.injEq] at h
      exact absurd (by rw [h.1]; simp) ha
    | cons y b =>
      simp only [List.cons_append, List.cons.injEq] at h
      rw [h.1, ih (by simp at ha; exact ha.2) (by simp at hb; exact hb.2) h.2]

theorem allPairs_first (css : Text) : ∀ (ss : List Snap) (k : Nat) (n : Text), n ∈ (allPairs css k ss).map Prod.fst →
    ∃ k', k ≤ k' ∧ ∃ r, n = dec (k' : Int) ++ '_' :: r := by
  intro ss
  induction ss with
  | nil => intro k n h; simp [allPairs] at h
  | cons s r ih =>
    intro k n h
    simp only [allPairs, List.map_append, List.mem_append, pairs_names, List.mem_map, List.mem_range] at h
    rcases h with (⟨i, _, rfl⟩ | ⟨i, _, rfl⟩) | h
    · exact ⟨k, le_refl _, _, by simp only [fileName, List.append_assoc, List.cons_append]; rfl⟩
    · exact ⟨k, le_refl _, _, by simp only [fileName, List.append_assoc, List.cons_append]; rfl⟩
    · have : n ∈ (allPairs css (k + 1) r).map Prod.fst := List.mem_map.2 h
      obtain ⟨k', hk, q⟩ := ih (k + 1) n this
      exact ⟨k', by omega, q⟩

theorem allPairs_nodup (css : Text) : ∀ (ss : List Snap) (k : Nat), ((allPairs css k ss).map Prod.fst).Nodup := by
  intro ss
  induction ss with
  | nil => intro k; simp [allPairs]
  | cons s r ih =>
    intro k
    simp only [allPairs, List.map_append]
    rw [List.nodup_append, List.nodup_append]
    refine ⟨⟨pairs_nodup _ _ _, pairs_nodup _ _ _, ?_⟩, ih (k + 1), ?_⟩
    · intro a ha b hb hab
      rw [pairs_names, List.mem_map] at ha hb
      obtain ⟨i, _, rfl⟩ := ha
      obtain ⟨j, _, rfl⟩ := hb
      simp only [fileName, List.append_assoc] at hab
      have h1 := List.append_cancel_left hab
      simp only [List.cons_append, List.cons.injEq, true_and] at h1
      have h2 := List.append_cancel_left h1
      simp at h2
    · intro a ha b hb hab
      subst hab
      obtain ⟨k', hk, r1, h1⟩ := allPairs_first css r (k + 1) a hb
      have h2 : ∃ r2, a = dec (k : Int) ++ '_' :: r2 := by
        rw [List.mem_append, pairs_names, pairs_names, List.mem_map, List.mem_map] at ha
        rcases ha with ⟨i, _, rfl⟩ | ⟨i, _, rfl⟩
        · exact ⟨_, by simp only [fileName, List.append_assoc, List.cons_append]; rfl⟩
        · exact ⟨_, by simp only [fileName, List.append_assoc, List.cons_append]; rfl⟩
      obtain ⟨r2, h2⟩ := h2
      have := dec_inj (first_part (dec_no_underscore k) (dec_no_underscore k') (h2.symm.trans h1))
      omega

theorem allPairs_texts (css : Text) : ∀ (ss : List Snap) (k : Nat),
    (allPairs css k ss).map Prod.snd = (allCalls ss).map fun c => page css c.body := by
  have hp : ∀ name l, (pairs css name l).map Prod.snd = l.map fun c => page css c.body := by
    intro name l
    unfold pairs
    rw [List.map_map]
    have : (Prod.snd ∘ fun x : Call × Nat => (fileName name x.2, page css x.1.body)) = (fun c => page css c.body) ∘ Prod.fst := rfl
    rw [this, ← List.map_map, List.zipIdx_map_fst]
  intro ss
  induction ss with
  | nil => intro k; rfl
  | cons s r ih =>
    intro k
    simp only [allPairs, List.map_append, hp, ih (k + 1), allCalls, List.flatMap_cons]

/-- **The slides of a training**: one file for each call in all snapshots, for the training and its end, with different
names (so none is overwritten), in the order of the calls, each showing what was written for its call, with its node; no other
file changes. -/
theorem training_slides (css : Text) (h : css ≠ []) (hc : '<' ∉ css) (f : Text → Option Text) (ss : List Snap) :
    ∃ names files, traceAll css 0 f ss = (names, (allCalls ss).map Call.node, files) ∧
      names.Nodup ∧ names.length = (allCalls ss).length ∧
      (∀ (i : Nat) (c : Call), (allCalls ss)[i]? = some c → ∃ n t, names[i]? = some n ∧ files n = some t ∧ getBody t = '\n' :: c.body) ∧
      (∀ n, n ∉ names → files n = f n) := by
  obtain ⟨e1, e2, e3⟩ := traceAll_eq css ss 0 f
  refine ⟨_, _, Prod.ext e1 (Prod.ext e2 e3), allPairs_nodup css ss 0, ?_, ?_, fun n hn => writes_other _ f n hn⟩
  · have := congrArg List.length (allPairs_texts css ss 0)
    simpa using this
  · intro i c hi
    have hx : ((allPairs css 0 ss).map Prod.snd)[i]? = some (page css c.body) := by
      rw [allPairs_texts, List.getElem?_map, hi]; rfl
    rw [List.getElem?_map, Option.map_eq_some_iff] at hx
    obtain ⟨x, hx, hx2⟩ := hx
    refine ⟨x.1, x.2, by rw [List.getElem?_map, hx]; rfl, ?_, by rw [hx2]; exact getBody_page css c.body h hc⟩
    exact writes_mem _ f (allPairs_nodup css ss 0) x (List.mem_of_getElem? hx)

/-! ### Concrete cases -/

example : fileName (dec 3 ++ '_' :: dec 12 ++ ['_', 't']) 0 =
    ['3', '_', '1', '2', '_', 't', '_', '0', '.', 'h', 't', 'm', 'l'] := by decide +kernel

example : getBody (page ['m', 'd', 'p', '.', 'c', 's', 's'] ['<', '/', 'B', 'o', 'd', 'y', '>', 'x']) =
    ['\n', '<', '/', 'B', 'o', 'd', 'y', '>', 'x'] := by decide +kernel

example : ∃ c : Call, c.sect.isSome ∧ '<' ∉ c.body := ⟨⟨['x'], [], some []⟩, rfl, by decide⟩

end Mdp.Bi.Slides
