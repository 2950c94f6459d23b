import Verif.Utils.Slideshow

/-!
# Slideshows: the controls of the page (C363)
-/

namespace Mdp.Slideshow

variable {F A S : Type} [DecidableEq A] [DecidableEq S]

theorem Shows.lt {p : Page F A S} {s : St F S} {i : Nat} (h : Shows p s i) : i < p.files.length := by
  obtain ⟨f, hf, _⟩ := h.shown
  exact (List.getElem?_eq_some_iff.1 hf).1

/-- `Pre` depends on two parts of the state only. -/
theorem Pre.of {p : Page F A S} {s s' : St F S} (h : Pre p s) (h1 : s'.sec = s.sec) (h2 : s'.active = s.active) :
    Pre p s' := by
  intro l hl
  rw [h1, h2]
  exact h l hl

/-- `Shows` depends on the shown slide only. -/
theorem Shows.of {p : Page F A S} {s s' : St F S} {i : Nat} (h : Shows p s i) (h0 : s'.cur = s.cur)
    (h1 : s'.sel = s.sel) (h2 : s'.shown = s.shown) (h3 : s'.sec = s.sec) (h4 : s'.active = s.active) :
    Shows p s' i := by
  refine ⟨h0.trans h.cur, h1.trans h.sel, by rw [h2]; exact h.shown, ?_⟩
  rw [h3, h4]
  exact h.sec

/-- `updateSlide` after a change of `current_slide`. -/
theorem go_shows (p : Page F A S) (hp : Good p) (s : St F S) (hs : Pre p s) (j : Int) (i : Nat) (hj : j = i)
    (hn : i < p.files.length) :
    ∃ s', update p { s with cur := j } = some s' ∧ Shows p s' i ∧ s'.running = s.running ∧
      s'.timers = s.timers ∧ s'.delay = s.delay :=
  update_shows p hp { s with cur := j } (hs.of rfl rfl) i hj hn

theorem showAuto_next (p : Page F A S) (hp : Good p) (s : St F S) (hs : Pre p s) (hr : s.running = true) (j : Nat)
    (hc : s.cur + 1 = j) (hj : j < p.files.length) :
    ∃ s', showAuto p s = some s' ∧ Shows p s' j ∧ s'.running = true ∧ s'.timers = s.timers + 1 ∧
      s'.delay = s.delay := by
  obtain ⟨s', h1, h2, h3, h4, h5⟩ := go_shows p hp s hs (s.cur + 1) j hc hj
  refine ⟨{ s' with timers := s'.timers + 1 }, ?_, h2.of rfl rfl rfl rfl rfl, by rw [← hr, ← h3], by simp [h4], h5⟩
  rw [showAuto, if_pos hr, if_neg (by omega), h1]
  rfl

theorem showAuto_loop (p : Page F A S) (hp : Good p) (s : St F S) (hs : Pre p s) (hr : s.running = true)
    (hl : p.loop = true) (hc : s.cur = (p.files.length : Int) - 1) :
    ∃ s', showAuto p s = some s' ∧ Shows p s' 0 ∧ s'.running = true ∧ s'.timers = s.timers + 1 ∧
      s'.delay = s.delay := by
  obtain ⟨s', h1, h2, h3, h4, h5⟩ := go_shows p hp s hs 0 0 rfl hp.pos
  refine ⟨{ s' with timers := s'.timers + 1 }, ?_, h2.of rfl rfl rfl rfl rfl, by rw [← hr, ← h3], by simp [h4], h5⟩
  rw [showAuto, if_pos hr, if_pos hc, if_pos hl, h1]
  rfl

theorem showAuto_end (p : Page F A S) (s : St F S) (hr : s.running = true)
    (hl : p.loop = false) (hc : s.cur = (p.files.length : Int) - 1) :
    showAuto p s = some { s with running := false, timers := s.timers + 1 } := by
  rw [showAuto, if_pos hr, if_pos hc, if_neg (by simp [hl])]
  rfl

theorem showAuto_idle (p : Page F A S) (s : St F S) (hr : s.running = false) : showAuto p s = some s := by
  rw [showAuto, if_neg (by simp [hr])]

/-- `showAuto` on a running page. -/
theorem showAuto_some (p : Page F A S) (hp : Good p) (s : St F S) (i : Nat) (h : Shows p s i) :
    ∃ s' j, showAuto p s = some s' ∧ Shows p s' j ∧ s'.timers = (if s.running then s.timers + 1 else s.timers) ∧
      (s'.running = true → s.running = true) ∧ s'.delay = s.delay := by
  have hi := h.lt
  have hc := h.cur
  cases hr : s.running with
  | false => exact ⟨s, i, showAuto_idle p s hr, h, by simp, by simp [hr], rfl⟩
  | true =>
    by_cases hn : i + 1 < p.files.length
    · obtain ⟨s', h1, h2, h3, h4, h5⟩ := showAuto_next p hp s h.pre hr (i + 1) (by omega) hn
      exact ⟨s', _, h1, h2, by simp [h4], by simp, h5⟩
    · cases hl : p.loop with
      | true =>
        obtain ⟨s', h1, h2, h3, h4, h5⟩ := showAuto_loop p hp s h.pre hr hl (by omega)
        exact ⟨s', _, h1, h2, by simp [h4], by simp, h5⟩
      | false =>
        exact ⟨_, i, showAuto_end p s hr hl (by omega), h.of rfl rfl rfl rfl rfl, by simp, by simp, rfl⟩

/-- The start button on a page that is stopped. -/
theorem start_shows (p : Page F A S) (hp : Good p) (s : St F S) (i : Nat) (h : Shows p s i) (hr : s.running = false) :
    ∃ s', startstop p s = some s' ∧ Shows p s' (if i + 1 < p.files.length then i + 1 else 0) ∧ s'.running = true ∧
      s'.timers = s.timers + 1 ∧ s'.delay = s.delay := by
  have hi := h.lt
  have hc := h.cur
  rw [startstop, if_neg (by simp [hr])]
  by_cases hn : i + 1 < p.files.length
  · rw [if_pos hn, if_neg (by omega)]
    exact showAuto_next p hp { s with running := true } (h.pre.of rfl rfl) rfl (i + 1) (by simp [hc]) hn
  · rw [if_neg hn]
    cases hl : p.loop with
    | true =>
      rw [if_neg (by simp)]
      exact showAuto_loop p hp { s with running := true } (h.pre.of rfl rfl) rfl hl (by simp [hc]; omega)
    | false =>
      rw [if_pos ⟨by simp, by omega⟩]
      exact showAuto_next p hp { s with running := true, cur := -1 } (h.pre.of rfl rfl) rfl 0 (by simp) hp.pos

/-- `updateSlide` changes nothing else. -/
theorem update_keeps (p : Page F A S) (s s' : St F S) (h : update p s = some s') :
    s'.running = s.running ∧ s'.timers = s.timers ∧ s'.delay = s.delay := by
  unfold update at h
  split at h
  · obtain ⟨f, _, rfl⟩ := Option.map_eq_some_iff.1 h
    exact ⟨rfl, rfl, rfl⟩
  · obtain ⟨o, _, h⟩ := Option.bind_eq_some_iff.1 h
    obtain ⟨a, _, h⟩ := Option.bind_eq_some_iff.1 h
    obtain ⟨x, _, h⟩ := Option.bind_eq_some_iff.1 h
    obtain ⟨b, _, h⟩ := Option.bind_eq_some_iff.1 h
    obtain ⟨f, _, rfl⟩ := Option.map_eq_some_iff.1 h
    exact ⟨rfl, rfl, rfl⟩

theorem go_keeps {p : Page F A S} {s s' : St F S} {c d : Int}
    (h : update p { s with cur := c, sel := d } = some s') :
    s'.running = s.running ∧ s'.timers = s.timers ∧ s'.delay = s.delay := by
  obtain ⟨h1, h2, h3⟩ := update_keeps p _ s' h
  exact ⟨h1, h2, h3⟩

theorem next_keeps (p : Page F A S) (s s' : St F S) (h : next p s = some s') :
    s'.running = s.running ∧ s'.timers = s.timers ∧ s'.delay = s.delay := by
  unfold next first at h
  split_ifs at h
  · exact go_keeps h
  · exact go_keeps h
  · cases h; exact ⟨rfl, rfl, rfl⟩

theorem previous_keeps (p : Page F A S) (s s' : St F S) (h : previous p s = some s') :
    s'.running = s.running ∧ s'.timers = s.timers ∧ s'.delay = s.delay := by
  unfold previous last at h
  split_ifs at h
  · exact go_keeps h
  · exact go_keeps h
  · cases h; exact ⟨rfl, rfl, rfl⟩

theorem nextSection_keeps (k : Nat) (p : Page F A S) (s s' : St F S) (h : nextSection k p s = some s') :
    s'.running = s.running ∧ s'.timers = s.timers ∧ s'.delay = s.delay := by
  unfold nextSection at h
  split at h
  · cases h; exact ⟨rfl, rfl, rfl⟩
  · split_ifs at h
    · cases h; exact ⟨rfl, rfl, rfl⟩
    · obtain ⟨i, _, h⟩ := Option.bind_eq_some_iff.1 h
      exact go_keeps h

theorem previousSection_keeps (k : Nat) (p : Page F A S) (s s' : St F S) (h : previousSection k p s = some s') :
    s'.running = s.running ∧ s'.timers = s.timers ∧ s'.delay = s.delay := by
  unfold previousSection at h
  split at h
  · cases h; exact ⟨rfl, rfl, rfl⟩
  · split_ifs at h
    · cases h; exact ⟨rfl, rfl, rfl⟩
    · obtain ⟨i, _, h⟩ := Option.bind_eq_some_iff.1 h
      obtain ⟨j, _, h⟩ := Option.bind_eq_some_iff.1 h
      exact go_keeps h

theorem clickLink_keeps (p : Page F A S) (m : Nat) (s s' : St F S) (h : clickLink p m s = some s') :
    s'.running = s.running ∧ s'.timers = s.timers ∧ s'.delay = s.delay := by
  unfold clickLink at h
  split at h
  · cases h; exact ⟨rfl, rfl, rfl⟩
  · split at h
    · cases h; exact ⟨rfl, rfl, rfl⟩
    · exact go_keeps h

/-! ## Property theorems -/

/-- C363. A slideshow of images is made exactly if there are images and, if names of sections are given, as many of
them; it then has a slide for each image. -/
theorem image_slideshow_accepts (files : List F) (secs : Option (List A)) (str : A → S) (loop : Bool)
    (delay : Option Int) (delta : Int) :
    ((∃ p, imageSlideshow files secs str loop delay delta = .ok p) ↔
      files ≠ [] ∧ ∀ l, secs = some l → l ≠ [] → l.length = files.length) ∧
    ∀ p, imageSlideshow files secs str loop delay delta = .ok p →
      p.files = files ∧ p.loop = loop ∧ p.delay = delay ∧ p.delta = delta ∧ p.str = str ∧
      (∀ l, p.secs = some l ↔ secs = some l ∧ l ≠ []) := by
  have hl : files.length = 0 ↔ files = [] := List.length_eq_zero_iff
  match secs with
  | none =>
    unfold imageSlideshow
    by_cases h : files = []
    · simp [h]
    · simp only [hl, h, if_false]
      exact ⟨by simp [h], fun p hp => by cases hp; simp⟩
  | some [] =>
    unfold imageSlideshow
    by_cases h : files = []
    · simp [h]
    · simp only [hl, h, if_false]
      exact ⟨by simp [h], fun p hp => by
        cases hp
        refine ⟨rfl, rfl, rfl, rfl, rfl, fun l => ?_⟩
        constructor
        · intro h; cases h
        · rintro ⟨h1, h2⟩; cases h1; exact absurd rfl h2⟩
  | some (x :: l) =>
    unfold imageSlideshow
    by_cases h1 : (x :: l).length = files.length
    · have h : files ≠ [] := by rintro rfl; simp at h1
      simp only [h1, hl, h, if_false, ne_eq, not_true_eq_false, not_false_eq_true, true_and]
      refine ⟨⟨fun _ l' hl' _ => ?_, fun _ => ⟨_, rfl⟩⟩, fun p hp => ?_⟩
      · cases hl'; exact h1
      · cases hp
        refine ⟨rfl, rfl, rfl, rfl, rfl, fun l' => ?_⟩
        constructor
        · intro h; cases h; exact ⟨rfl, by simp⟩
        · exact fun h => h.1
    · simp only [ne_eq, h1, not_false_eq_true, if_true]
      refine ⟨⟨fun h => ?_, fun h => absurd (h.2 _ rfl (by simp)) h1⟩, fun p hp => by cases hp⟩
      obtain ⟨p, hp⟩ := h
      cases hp

/-- C363. There is one link for each section, in order: a link for each slide whose section differs from that of the
slide before, leading to this slide. -/
theorem section_links (l : List A) :
    (∀ x j, (x, j) ∈ links l ↔ l[j]? = some x ∧ (j = 0 ∨ l[j - 1]? ≠ some x)) ∧
    (links l).Pairwise fun a b => a.2 < b.2 := by
  refine ⟨fun x j => ?_, (linkLoop_sorted l 0 none none (by simp)).1⟩
  rw [links, linkLoop_iff x j l 0 none none (fun _ => rfl)]
  constructor
  · rintro (h | ⟨t, h1, h2, h3⟩)
    · simp at h
    · obtain rfl : j = t := by omega
      refine ⟨h2, ?_⟩
      by_cases h0 : j = 0
      · exact .inl h0
      · rw [if_neg h0] at h3; exact .inr h3
  · rintro ⟨h1, h2⟩
    refine .inr ⟨j, by omega, h1, ?_⟩
    split_ifs with h0
    · simp
    · exact h2.resolve_left h0

/-- C363. The page starts with the slide that is selected in the menu, and stopped. -/
theorem load_shows (p : Page F A S) (hp : Good p) (d : Int) (hd : p.delay = some d) (i : Nat)
    (hi : i < p.files.length) :
    ∃ s, load p i = some s ∧ Shows p s i ∧ s.running = false ∧ s.timers = 0 ∧ s.delay = some d := by
  unfold load
  rw [hd, Option.bind_some]
  refine update_shows p hp _ ?_ i rfl hi
  intro l hl
  have hlen := hp.len l hl
  cases l with
  | nil => have := hp.pos; simp at hlen; omega
  | cons x l =>
    refine ⟨p.str x, by simp [hl], mem_linkIds p _ x (by simp), .inl (by simp [hl])⟩

/-- C363. The button "next" shows the slide after the current one, at the end the first one if the slideshow is a
loop and otherwise nothing new. -/
theorem next_shows (p : Page F A S) (hp : Good p) (s : St F S) (i : Nat) (h : Shows p s i) :
    ∃ s', next p s = some s' ∧
      Shows p s' (if i + 1 < p.files.length then i + 1 else if p.loop then 0 else i) := by
  unfold next
  have e : s.cur + 1 = ((i + 1 : Nat) : Int) := by rw [h.cur]; rfl
  rw [e, jsGet_nat]
  by_cases h1 : i + 1 < p.files.length
  · have : (p.files[i + 1]?).isSome = true := by simp [h1]
    rw [if_pos this, if_pos h1]
    obtain ⟨s', h2, h3, _⟩ := go_shows p hp s h.pre _ _ rfl h1
    exact ⟨s', h2, h3⟩
  · have : ¬ (p.files[i + 1]?).isSome = true := by simp; omega
    rw [if_neg this, if_neg h1]
    by_cases hl : p.loop = true
    · rw [if_pos hl, if_pos hl]
      obtain ⟨s', h2, h3, _⟩ := go_shows p hp s h.pre 0 0 rfl hp.pos
      exact ⟨s', h2, h3⟩
    · rw [if_neg hl, if_neg hl]
      exact ⟨s, rfl, h⟩

/-- C363. The button "previous" shows the slide before the current one, at the start the last one if the slideshow is a
loop and otherwise nothing new. -/
theorem previous_shows (p : Page F A S) (hp : Good p) (s : St F S) (i : Nat) (h : Shows p s i) :
    ∃ s', previous p s = some s' ∧
      Shows p s' (if 0 < i then i - 1 else if p.loop then p.files.length - 1 else i) := by
  unfold previous
  have hi := h.lt
  have hc := h.cur
  by_cases h1 : 0 < i
  · rw [if_pos (by omega), if_pos h1]
    obtain ⟨s', h2, h3, _⟩ := go_shows p hp s h.pre (s.cur - 1) (i - 1) (by omega) (by omega)
    exact ⟨s', h2, h3⟩
  · rw [if_neg (by omega), if_neg h1]
    by_cases hl : p.loop = true
    · rw [if_pos hl, if_pos hl]
      obtain ⟨s', h2, h3, _⟩ := go_shows p hp s h.pre ((p.files.length : Int) - 1) (p.files.length - 1)
        (by omega) (by omega)
      exact ⟨s', h2, h3⟩
    · rw [if_neg hl, if_neg hl]
      exact ⟨s, rfl, h⟩

/-- C363. The other ways to a slide: the first, the last, an entry of the menu, the link to a section. -/
theorem goto_shows (p : Page F A S) (hp : Good p) (s : St F S) (i : Nat) (h : Shows p s i) :
    (∃ s', first p s = some s' ∧ Shows p s' 0) ∧
    (∃ s', last p s = some s' ∧ Shows p s' (p.files.length - 1)) ∧
    (∀ j < p.files.length, ∃ s', select p j s = some s' ∧ Shows p s' j) ∧
    (∀ l m x j, p.secs = some l → (links l)[m]? = some (x, j) → ∃ s', clickLink p m s = some s' ∧ Shows p s' j) := by
  have hi := h.lt
  refine ⟨?_, ?_, fun j hj => ?_, fun l m x j hl hm => ?_⟩
  · obtain ⟨s', h2, h3, _⟩ := go_shows p hp s h.pre 0 0 rfl hp.pos
    exact ⟨s', h2, h3⟩
  · obtain ⟨s', h2, h3, _⟩ := go_shows p hp s h.pre ((p.files.length : Int) - 1) (p.files.length - 1)
      (by omega) (by omega)
    exact ⟨s', h2, h3⟩
  · obtain ⟨s', h2, h3, _⟩ := update_shows p hp { s with sel := j, cur := j } (h.pre.of rfl rfl) j rfl hj
    exact ⟨s', h2, h3⟩
  · have hj : j < p.files.length := by
      have := ((section_links l).1 x j).1 (List.mem_iff_getElem?.2 ⟨m, hm⟩)
      rw [← hp.len l hl]
      exact (List.getElem?_eq_some_iff.1 this.1).1
    obtain ⟨s', h2, h3, _⟩ := go_shows p hp s h.pre (j : Int) j rfl hj
    exact ⟨s', by simp only [clickLink, hl, hm, h2], h3⟩

/-- C363. The button "next section" ends and shows the first slide behind the current one, after the last slide
beginning with the first, that is in another section; with a single section it does nothing. -/
theorem nextSection_shows (k : Nat) (p : Page F A S) (hp : Good p) (hk : p.files.length < k) (s : St F S) (i : Nat)
    (h : Shows p s i) (l : List A) (hl : p.secs = some l) (x : A) (hx : l[i]? = some x) :
    ((∃ y ∈ l, y ≠ x) → ∃ s' m, nextSection k p s = some s' ∧ Shows p s' ((i + m) % l.length) ∧ 0 < m ∧
      m < l.length ∧ l[(i + m) % l.length]? ≠ some x ∧ ∀ u < m, l[(i + u) % l.length]? = some x) ∧
    ((∀ y ∈ l, y = x) → nextSection k p s = some s) := by
  have hxm : x ∈ l := List.mem_iff_getElem?.2 ⟨i, hx⟩
  have honly : onlyOne l = true ↔ ∀ y ∈ l, y = x := by
    cases l with
    | nil => simp at hx
    | cons z l =>
      simp only [onlyOne, List.all_eq_true, decide_eq_true_eq]
      constructor
      · intro h y hy; rw [h y hy, h x hxm]
      · intro h y hy; rw [h y hy, h z (by simp)]
  constructor
  · rintro ⟨y, hy, hne⟩
    have ho : onlyOne l = false := by
      rw [Bool.eq_false_iff]; intro h; exact hne (honly.1 h y hy)
    obtain ⟨m, hm0, hm, he, ha⟩ := exists_next l x i hx ho
    have hlen := hp.len l hl
    have hsec : s.sec = some (p.str x) := by
      obtain ⟨x', _, h1, h2, _⟩ := h.sec l hl
      rw [hx] at h1; cases h1; exact h2
    have hloop := nextLoop_spec p.files.length (l.map p.str) (some (p.str x)) i m h.lt (by omega)
      (by rw [ne_eq, str_iff p hp l hl x hxm, ← hlen]; exact he)
      (fun u hu => by rw [str_iff p hp l hl x hxm, ← hlen]; exact ha u hu) k 0 (by omega) (by omega)
    rw [Nat.add_zero, Nat.mod_eq_of_lt h.lt, ← hlen] at hloop
    obtain ⟨s', h2, h3, _⟩ := go_shows p hp s h.pre (((i + m) % l.length : Nat) : Int) ((i + m) % l.length) rfl
      (by rw [← hlen]; exact Nat.mod_lt _ (by have := hp.pos; omega))
    refine ⟨s', m, ?_, h3, hm0, hm, he, ha⟩
    rw [hsec] at h2
    simp only [nextSection, hl, ho, hsec, h.cur, ← hlen, hloop, Option.bind_some, h2]
    rfl
  · intro hy
    have := honly.2 hy
    simp only [nextSection, hl, this, if_true]

/-- C363. The button "previous section" ends and shows the first slide of the section before the current one: of the
slides before the current one, before the first slide beginning with the last, take the first one (`e`) that is in
another section, and go back from it as long as the section stays the same. -/
theorem previousSection_shows (k : Nat) (p : Page F A S) (hp : Good p) (hk : p.files.length < k) (s : St F S) (i : Nat)
    (h : Shows p s i) (l : List A) (hl : p.secs = some l) (x : A) (hx : l[i]? = some x) :
    ((∃ y ∈ l, y ≠ x) → ∃ s' m e st y, previousSection k p s = some s' ∧ Shows p s' st ∧ 0 < m ∧ m < l.length ∧
      e = (i + l.length - m) % l.length ∧ l[e]? = some y ∧ y ≠ x ∧
      (∀ u < m, l[(i + l.length - u) % l.length]? = some x) ∧
      st ≤ e ∧ (∀ t, st ≤ t → t ≤ e → l[t]? = some y) ∧ (st = 0 ∨ l[st - 1]? ≠ some y)) ∧
    ((∀ y ∈ l, y = x) → previousSection k p s = some s) := by
  have hxm : x ∈ l := List.mem_iff_getElem?.2 ⟨i, hx⟩
  have honly : onlyOne l = true ↔ ∀ y ∈ l, y = x := by
    cases l with
    | nil => simp at hx
    | cons z l =>
      simp only [onlyOne, List.all_eq_true, decide_eq_true_eq]
      constructor
      · intro h y hy; rw [h y hy, h x hxm]
      · intro h y hy; rw [h y hy, h z (by simp)]
  constructor
  · rintro ⟨y, hy, hne⟩
    have ho : onlyOne l = false := by
      rw [Bool.eq_false_iff]; intro h; exact hne (honly.1 h y hy)
    obtain ⟨m, hm0, hm, he, ha⟩ := exists_prev l x i hx ho
    have hlen := hp.len l hl
    have hsec : s.sec = some (p.str x) := by
      obtain ⟨x', _, h1, h2, _⟩ := h.sec l hl
      rw [hx] at h1; cases h1; exact h2
    have hloop := prevLoop_spec p.files.length (l.map p.str) (some (p.str x)) i m h.lt (by omega)
      (by rw [ne_eq, str_iff p hp l hl x hxm, ← hlen]; exact he)
      (fun u hu => by rw [str_iff p hp l hl x hxm, ← hlen]; exact ha u hu) k 0 (by omega) (by omega)
    rw [Nat.sub_zero, Nat.add_mod_right, Nat.mod_eq_of_lt h.lt, ← hlen] at hloop
    have hel : (i + l.length - m) % l.length < l.length := Nat.mod_lt _ (by omega)
    generalize he' : (i + l.length - m) % l.length = e at *
    have hez : l[e]? = some l[e] := List.getElem?_eq_getElem hel
    have hem : l[e] ∈ l := List.getElem_mem hel
    obtain ⟨st, b1, b2, b3, b4⟩ := backLoop_spec (l.map p.str) (p.str l[e]) e k (by omega)
      ((str_iff p hp l hl _ hem e).2 hez)
    obtain ⟨s', h2, h3, _⟩ := go_shows p hp s h.pre ((st : Int) - 1 + 1) st (by omega) (by omega)
    refine ⟨s', m, e, st, l[e], ?_, h3, hm0, hm, he'.symm, hez, fun hh => he (by rw [hez, hh]), ha, b2,
      fun t ht hte => (str_iff p hp l hl _ hem t).1 (b3 t ht hte),
      b4.imp_right fun hb hc => hb ((str_iff p hp l hl _ hem _).2 hc)⟩
    have hj : jsGet (l.map p.str) (e : Int) = some (p.str l[e]) := by
      rw [jsGet_nat]; exact (str_iff p hp l hl _ hem e).2 hez
    rw [hsec] at h2
    simp only [previousSection, hl, ho, hsec, h.cur, ← hlen, hloop, Option.bind_some, hj, b1, h2]
    rfl
  · intro hy
    have := honly.2 hy
    simp only [previousSection, hl, this, if_true]

/-- One event. -/
theorem step_shows (k : Nat) (p : Page F A S) (hp : Good p) (hk : p.files.length < k) (o : Op) (s : St F S) (i : Nat)
    (h : Shows p s i) : ∃ s' j, step k p o s = some s' ∧ Shows p s' j := by
  obtain ⟨g1, g2, g3, g4⟩ := goto_shows p hp s i h
  have hsec : ∀ l, p.secs = some l → ∃ x, l[i]? = some x := fun l hl => by
    obtain ⟨x, _, hx, _⟩ := h.sec l hl; exact ⟨x, hx⟩
  cases o with
  | first => obtain ⟨s', a, b⟩ := g1; exact ⟨s', _, a, b⟩
  | last => obtain ⟨s', a, b⟩ := g2; exact ⟨s', _, a, b⟩
  | next => obtain ⟨s', a, b⟩ := next_shows p hp s i h; exact ⟨s', _, a, b⟩
  | previous => obtain ⟨s', a, b⟩ := previous_shows p hp s i h; exact ⟨s', _, a, b⟩
  | select j =>
    by_cases hj : j < p.files.length
    · obtain ⟨s', a, b⟩ := g3 j hj
      exact ⟨s', j, by rw [step, if_pos hj, a], b⟩
    · exact ⟨s, i, by rw [step, if_neg hj], h⟩
  | startstop =>
    cases hr : s.running with
    | true => exact ⟨{ s with running := false }, i, by simp [step, startstop, hr], h.of rfl rfl rfl rfl rfl⟩
    | false =>
      obtain ⟨s', a, b, _⟩ := start_shows p hp s i h hr
      exact ⟨s', _, a, b⟩
  | tick =>
    by_cases ht : s.timers = 0
    · exact ⟨s, i, by simp [step, tick, ht], h⟩
    · obtain ⟨s', j, a, b, _⟩ := showAuto_some p hp { s with timers := s.timers - 1 } i (h.of rfl rfl rfl rfl rfl)
      exact ⟨s', j, by rw [step, tick, if_neg ht, a], b⟩
  | nextSection =>
    cases hl : p.secs with
    | none => exact ⟨s, i, by simp [step, nextSection, hl], h⟩
    | some l =>
      obtain ⟨x, hx⟩ := hsec l hl
      obtain ⟨a, b⟩ := nextSection_shows k p hp hk s i h l hl x hx
      by_cases hy : ∀ y ∈ l, y = x
      · exact ⟨s, i, b hy, h⟩
      · push_neg at hy
        obtain ⟨s', m, c, d, _⟩ := a hy
        exact ⟨s', _, c, d⟩
  | previousSection =>
    cases hl : p.secs with
    | none => exact ⟨s, i, by simp [step, previousSection, hl], h⟩
    | some l =>
      obtain ⟨x, hx⟩ := hsec l hl
      obtain ⟨a, b⟩ := previousSection_shows k p hp hk s i h l hl x hx
      by_cases hy : ∀ y ∈ l, y = x
      · exact ⟨s, i, b hy, h⟩
      · push_neg at hy
        obtain ⟨s', m, e, st, y, c, d, _⟩ := a hy
        exact ⟨s', _, c, d⟩
  | clickLink m =>
    cases hl : p.secs with
    | none => exact ⟨s, i, by simp [step, clickLink, hl], h⟩
    | some l =>
      cases hm : (links l)[m]? with
      | none => exact ⟨s, i, by simp [step, clickLink, hl, hm], h⟩
      | some x =>
        obtain ⟨s', a, b⟩ := g4 l m x.1 x.2 hl hm
        exact ⟨s', _, a, b⟩
  | slower => exact ⟨_, i, rfl, h.of rfl rfl rfl rfl rfl⟩
  | faster => exact ⟨_, i, rfl, h.of rfl rfl rfl rfl rfl⟩
  | changeDelay t => exact ⟨_, i, rfl, h.of rfl rfl rfl rfl rfl⟩

/-- C363. The buttons, the menu and the links of the page: which slide each of them shows, and what the buttons for the
speed do to the delay. -/
theorem slideshow_buttons (k : Nat) (p : Page F A S) (hp : Good p) (s : St F S) (i : Nat) (h : Shows p s i) :
    (∃ s', run k p [.first] s = some s' ∧ Shows p s' 0) ∧
    (∃ s', run k p [.last] s = some s' ∧ Shows p s' (p.files.length - 1)) ∧
    (∃ s', run k p [.next] s = some s' ∧ Shows p s' (if i + 1 < p.files.length then i + 1 else if p.loop then 0 else i)) ∧
    (∃ s', run k p [.previous] s = some s' ∧ Shows p s' (if 0 < i then i - 1 else if p.loop then p.files.length - 1 else i)) ∧
    (∀ j < p.files.length, ∃ s', run k p [.select j] s = some s' ∧ Shows p s' j) ∧
    (∀ l m x j, p.secs = some l → (links l)[m]? = some (x, j) → ∃ s', run k p [.clickLink m] s = some s' ∧ Shows p s' j) ∧
    (∀ d, s.delay = some d → ∃ s', run k p [.slower] s = some s' ∧ Shows p s' i ∧ s'.delay = some (d + p.delta)) ∧
    (∀ d, s.delay = some d → p.delta < d → ∃ s', run k p [.faster] s = some s' ∧ Shows p s' i ∧ s'.delay = some (d - p.delta)) := by
  obtain ⟨g1, g2, g3, g4⟩ := goto_shows p hp s i h
  obtain ⟨a, ha, ha'⟩ := g1
  obtain ⟨b, hb, hb'⟩ := g2
  obtain ⟨c, hc, hc'⟩ := next_shows p hp s i h
  obtain ⟨d, hd, hd'⟩ := previous_shows p hp s i h
  refine ⟨⟨a, by simp [run, step, ha], ha'⟩, ⟨b, by simp [run, step, hb], hb'⟩, ⟨c, by simp [run, step, hc], hc'⟩,
    ⟨d, by simp [run, step, hd], hd'⟩, ?_, ?_, ?_, ?_⟩
  · intro j hj
    obtain ⟨e, he, he'⟩ := g3 j hj
    exact ⟨e, by simp [run, step, hj, he], he'⟩
  · intro l m x j h1 h2
    obtain ⟨e, he, he'⟩ := g4 l m x j h1 h2
    exact ⟨e, by simp [run, step, he], he'⟩
  · intro d hd
    exact ⟨slower p s, by simp [run, step], ⟨h.1, h.2, h.3, h.4⟩, by simp [slower, hd]⟩
  · intro d hd hlt
    exact ⟨faster p s, by simp [run, step], ⟨h.1, h.2, h.3, h.4⟩, by simp [faster, hd]; omega⟩

/-- C363. Whatever is clicked, typed and timed out, no script of the page fails or runs forever, and the page shows one
of the slides, which is the one selected in the menu and whose section is highlighted. -/
theorem slideshow_consistent (k : Nat) (p : Page F A S) (hp : Good p) (hk : p.files.length < k) (d : Int)
    (hd : p.delay = some d) (i : Nat) (hi : i < p.files.length) (ops : List Op) :
    ∃ s s' j, load p i = some s ∧ run k p ops s = some s' ∧ Shows p s' j := by
  obtain ⟨s, hs, h, hrest⟩ := load_shows p hp d hd i hi
  suffices ∀ (ops : List Op) (s : St F S) (i : Nat), Shows p s i → ∃ s' j, run k p ops s = some s' ∧ Shows p s' j by
    obtain ⟨s', j, a, b⟩ := this ops s i h
    exact ⟨s, s', j, hs, a, b⟩
  clear hrest h hs s
  intro ops
  induction ops with
  | nil => exact fun s i h => ⟨s, i, rfl, h⟩
  | cons o ops ih =>
    intro s i h
    obtain ⟨s1, j1, a, b⟩ := step_shows k p hp hk o s i h
    obtain ⟨s', j, c, d⟩ := ih s1 j1 b
    exact ⟨s', j, by rw [run, a, Option.bind_some, c], d⟩

/-- C363. After the start a slideshow that is a loop shows the slides in turn, one for each timeout, forever. -/
theorem autoplay_loop (k : Nat) (p : Page F A S) (hp : Good p) (hl : p.loop = true) (s : St F S) (i : Nat)
    (h : Shows p s i) (hr : s.running = false) (ht : s.timers = 0) (n : Nat) :
    ∃ s', run k p (.startstop :: List.replicate n .tick) s = some s' ∧
      Shows p s' ((i + 1 + n) % p.files.length) ∧ s'.running = true ∧ s'.timers = 1 := by
  have hi := h.lt
  have tks : ∀ (n : Nat) (s : St F S) (j : Nat), Shows p s j → s.running = true → s.timers = 1 →
      ∃ s', run k p (List.replicate n .tick) s = some s' ∧ Shows p s' ((j + n) % p.files.length) ∧
        s'.running = true ∧ s'.timers = 1 := by
    intro n
    induction n with
    | zero => exact fun s j h hr ht => ⟨s, rfl, by rw [Nat.add_zero, Nat.mod_eq_of_lt h.lt]; exact h, hr, ht⟩
    | succ n ih =>
      intro s j h hr ht
      have hj := h.lt
      have hc := h.cur
      have hstep : ∃ s1, tick p s = some s1 ∧ Shows p s1 ((j + 1) % p.files.length) ∧ s1.running = true ∧
          s1.timers = 1 := by
        rw [tick, if_neg (by omega)]
        have hpre : Pre p { s with timers := s.timers - 1 } := h.pre.of rfl rfl
        by_cases hn : j + 1 < p.files.length
        · rw [Nat.mod_eq_of_lt hn]
          obtain ⟨s1, a, b, c, d, _⟩ := showAuto_next p hp _ hpre hr (j + 1) (by simp [hc]) hn
          exact ⟨s1, a, b, c, by simp [d, ht]⟩
        · have : j + 1 = p.files.length := by omega
          rw [this, Nat.mod_self]
          obtain ⟨s1, a, b, c, d, _⟩ := showAuto_loop p hp _ hpre hr hl (by simp [hc]; omega)
          exact ⟨s1, a, b, c, by simp [d, ht]⟩
      obtain ⟨s1, a, b, c, d⟩ := hstep
      obtain ⟨s', e, f, g, q⟩ := ih s1 _ b c d
      refine ⟨s', ?_, ?_, g, q⟩
      · rw [List.replicate_succ, run, step, a, Option.bind_some, e]
      · rw [Nat.mod_add_mod] at f
        rw [show j + (n + 1) = j + 1 + n by omega]
        exact f
  obtain ⟨s1, a, b, c, d, _⟩ := start_shows p hp s i h hr
  obtain ⟨s', e, f, g, q⟩ := tks n s1 _ b c (by omega)
  refine ⟨s', by rw [run, step, a, Option.bind_some, e], ?_, g, q⟩
  have : (if i + 1 < p.files.length then i + 1 else 0) = (i + 1) % p.files.length := by
    split_ifs with h
    · rw [Nat.mod_eq_of_lt h]
    · have : i + 1 = p.files.length := by omega
      rw [this, Nat.mod_self]
  rw [this, Nat.mod_add_mod] at f
  exact f

/-- C363. A slideshow that is no loop plays up to the last slide and stops there; started at the last slide it begins
again. -/
theorem autoplay_end (k : Nat) (p : Page F A S) (hp : Good p) (hl : p.loop = false) (s : St F S) (i : Nat)
    (h : Shows p s i) (hr : s.running = false) (ht : s.timers = 0) (n a : Nat)
    (ha : a = if i + 1 < p.files.length then i + 1 else 0) :
    ∃ s', run k p (.startstop :: List.replicate n .tick) s = some s' ∧
      Shows p s' (min (a + n) (p.files.length - 1)) ∧ s'.running = decide (a + n < p.files.length) := by
  have hi := h.lt
  have stop : ∀ (n : Nat) (s : St F S) (j : Nat), Shows p s j → s.running = false →
      ∃ s', run k p (List.replicate n .tick) s = some s' ∧ Shows p s' j ∧ s'.running = false := by
    intro n
    induction n with
    | zero => exact fun s j h hr => ⟨s, rfl, h, hr⟩
    | succ n ih =>
      intro s j h hr
      have hstep : ∃ s1, tick p s = some s1 ∧ Shows p s1 j ∧ s1.running = false := by
        unfold tick
        split_ifs
        · exact ⟨s, rfl, h, hr⟩
        · exact ⟨_, showAuto_idle p _ hr, h.of rfl rfl rfl rfl rfl, hr⟩
      obtain ⟨s1, x, y, z⟩ := hstep
      obtain ⟨s', e, f, g⟩ := ih s1 j y z
      exact ⟨s', by rw [List.replicate_succ, run, step, x, Option.bind_some, e], f, g⟩
  have tks : ∀ (n : Nat) (s : St F S) (j : Nat), Shows p s j → s.running = true → s.timers = 1 →
      ∃ s', run k p (List.replicate n .tick) s = some s' ∧ Shows p s' (min (j + n) (p.files.length - 1)) ∧
        s'.running = decide (j + n < p.files.length) := by
    intro n
    induction n with
    | zero =>
      intro s j h hr ht
      have := h.lt
      refine ⟨s, rfl, ?_, by simp [hr, this]⟩
      rw [show min (j + 0) (p.files.length - 1) = j by omega]; exact h
    | succ n ih =>
      intro s j h hr ht
      have hj := h.lt
      have hc := h.cur
      have hpre : Pre p { s with timers := s.timers - 1 } := h.pre.of rfl rfl
      by_cases hn : j + 1 < p.files.length
      · obtain ⟨s1, x, y, z, w, _⟩ := showAuto_next p hp _ hpre hr (j + 1) (by simp [hc]) hn
        obtain ⟨s', e, f, g⟩ := ih s1 _ y z (by simp [w, ht])
        rw [show j + 1 + n = j + (n + 1) by omega] at f g
        exact ⟨s', by rw [List.replicate_succ, run, step, tick, if_neg (by omega), x, Option.bind_some, e], f, g⟩
      · have x := showAuto_end p { s with timers := s.timers - 1 } hr hl (by simp [hc]; omega)
        obtain ⟨s', e, f, g⟩ := stop n { s with running := false, timers := s.timers - 1 + 1 } j
          (h.of rfl rfl rfl rfl rfl) rfl
        refine ⟨s', by rw [List.replicate_succ, run, step, tick, if_neg (by omega), x, Option.bind_some, e], ?_, ?_⟩
        · rw [show min (j + (n + 1)) (p.files.length - 1) = j by omega]; exact f
        · rw [g]; symm; simp; omega
  obtain ⟨s1, x, y, z, w, _⟩ := start_shows p hp s i h hr
  obtain ⟨s', e, f, g⟩ := tks n s1 _ y z (by omega)
  rw [← ha] at f g
  exact ⟨s', by rw [run, step, x, Option.bind_some, e], f, g⟩

/-- C363, partial. There is at most one pending timeout, if the start button is not pressed while there is one on a
stopped page. -/
theorem autoplay_timers_partial (k : Nat) (p : Page F A S) (hp : Good p) (o : Op)
    (s s' : St F S) (i : Nat) (h : Shows p s i) (ho : o ≠ .startstop ∨ s.running = true ∨ s.timers = 0)
    (ht : s.timers ≤ 1 ∧ (s.running = true → s.timers = 1)) (hs : step k p o s = some s') :
    s'.timers ≤ 1 ∧ (s'.running = true → s'.timers = 1) := by
  have keep : s'.running = s.running ∧ s'.timers = s.timers ∧ s'.delay = s.delay →
      s'.timers ≤ 1 ∧ (s'.running = true → s'.timers = 1) := by
    rintro ⟨h1, h2, _⟩; rw [h1, h2]; exact ht
  cases o with
  | first => exact keep (go_keeps hs)
  | last => exact keep (go_keeps hs)
  | next => exact keep (next_keeps p s s' hs)
  | previous => exact keep (previous_keeps p s s' hs)
  | select j =>
    rw [step] at hs
    split_ifs at hs
    · exact keep (go_keeps hs)
    · cases hs; exact ht
  | startstop =>
    cases hr : s.running with
    | true =>
      simp only [step, startstop, hr, if_true] at hs
      cases hs; exact ⟨ht.1, by simp⟩
    | false =>
      have h0 : s.timers = 0 := by
        rcases ho with h | h | h
        · exact absurd rfl h
        · rw [hr] at h; cases h
        · exact h
      obtain ⟨s1, a, _, b, c, _⟩ := start_shows p hp s i h hr
      rw [step, a] at hs
      cases hs
      omega
  | tick =>
    rw [step, tick] at hs
    split_ifs at hs with h0
    · cases hs; exact ht
    · obtain ⟨s1, j, a, _, b, c, _⟩ := showAuto_some p hp { s with timers := s.timers - 1 } i
        (h.of rfl rfl rfl rfl rfl)
      rw [a] at hs
      cases hs
      cases hr : s.running with
      | true => rw [b]; simp [hr]; omega
      | false =>
        refine ⟨by rw [b]; simp [hr]; omega, fun hs1 => ?_⟩
        have := c hs1
        simp [hr] at this
  | nextSection => exact keep (nextSection_keeps k p s s' hs)
  | previousSection => exact keep (previousSection_keeps k p s s' hs)
  | clickLink m => exact keep (clickLink_keeps p m s s' hs)
  | slower => cases hs; exact ht
  | faster => cases hs; exact ht
  | changeDelay t => cases hs; exact ht

/-- C363. But a slideshow that is stopped and started again before the delay is over has two timeouts: from then on it
shows two slides per delay. -/
theorem autoplay_timers_violation (k : Nat) (p : Page F A S) (hp : Good p) (s : St F S) (i : Nat) (h : Shows p s i)
    (hr : s.running = false) (ht : s.timers = 0) :
    ∃ s', run k p [.startstop, .startstop, .startstop] s = some s' ∧ s'.running = true ∧ s'.timers = 2 := by
  obtain ⟨s1, a, b, c, d, _⟩ := start_shows p hp s i h hr
  have e : startstop p s1 = some { s1 with running := false } := by simp [startstop, c]
  obtain ⟨s3, a', _, c', d', _⟩ := start_shows p hp { s1 with running := false } _ (b.of rfl rfl rfl rfl rfl) rfl
  refine ⟨s3, ?_, c', ?_⟩
  · simp only [run, step, a, Option.bind_some, e, a']
  · rw [d']; show s1.timers + 1 = 2; omega

/-- C363. The delay is never negative. -/
theorem delay_nonneg (k : Nat) (p : Page F A S) (hp : Good p) (hk : p.files.length < k) (hδ : 0 ≤ p.delta) (d : Int)
    (hd : p.delay = some d) (h0 : 0 ≤ d) (i : Nat) (hi : i < p.files.length) (ops : List Op) (s s' : St F S)
    (hs : load p i = some s) (hr : run k p ops s = some s') : ∀ x, s'.delay = some x → 0 ≤ x := by
  obtain ⟨s1, a, b, r1, r2, c⟩ := load_shows p hp d hd i hi
  rw [hs] at a
  cases a
  have hstart : ∀ x, s.delay = some x → 0 ≤ x := by intro x hx; rw [c] at hx; cases hx; exact h0
  clear c hs r1 r2
  induction ops generalizing s i with
  | nil => cases hr; exact hstart
  | cons o ops ih =>
    rw [run] at hr
    obtain ⟨s2, h2, hr⟩ := Option.bind_eq_some_iff.1 hr
    obtain ⟨s3, j, h3, b3⟩ := step_shows k p hp hk o s i b
    rw [h2] at h3
    cases h3
    refine ih j b3.lt s2 hr b3 ?_
    have keep : s2.running = s.running ∧ s2.timers = s.timers ∧ s2.delay = s.delay →
        ∀ x, s2.delay = some x → 0 ≤ x := by
      rintro ⟨_, _, h⟩; rw [h]; exact hstart
    cases o with
    | first => exact keep (go_keeps h2)
    | last => exact keep (go_keeps h2)
    | next => exact keep (next_keeps p s s2 h2)
    | previous => exact keep (previous_keeps p s s2 h2)
    | select j =>
      rw [step] at h2
      split_ifs at h2
      · exact keep (go_keeps h2)
      · cases h2; exact hstart
    | startstop =>
      cases hr' : s.running with
      | true =>
        simp only [step, startstop, hr', if_true] at h2
        cases h2; exact hstart
      | false =>
        obtain ⟨s4, a, _, _, _, c⟩ := start_shows p hp s i b hr'
        rw [step, a] at h2
        cases h2
        rw [c]; exact hstart
    | tick =>
      rw [step, tick] at h2
      split_ifs at h2
      · cases h2; exact hstart
      · obtain ⟨s4, j, a, _, _, _, c⟩ := showAuto_some p hp { s with timers := s.timers - 1 } i
          (b.of rfl rfl rfl rfl rfl)
        rw [a] at h2
        cases h2
        rw [c]; exact hstart
    | nextSection => exact keep (nextSection_keeps k p s s2 h2)
    | previousSection => exact keep (previousSection_keeps k p s s2 h2)
    | clickLink m => exact keep (clickLink_keeps p m s s2 h2)
    | slower =>
      cases h2
      intro x hx
      obtain ⟨y, hy, rfl⟩ := Option.map_eq_some_iff.1 hx
      have := hstart y hy
      omega
    | faster =>
      cases h2
      intro x hx
      obtain ⟨y, hy, rfl⟩ := Option.map_eq_some_iff.1 hx
      split_ifs <;> omega
    | changeDelay t =>
      cases h2
      intro x hx
      obtain ⟨y, hy, rfl⟩ := Option.map_eq_some_iff.1 hx
      split_ifs <;> omega

/-- C363. With the delay None, for which the templates provide a page without the control of the delay, the script of
the page ends with an error: nothing is shown. -/
theorem delay_none_violation (p : Page F A S) (h : p.delay = none) (i : Nat) : load p i = none := by
  rw [load, h]; rfl

/-- Names of sections: numbers and strings. -/
inductive Id
  | num (n : Nat)
  | text (s : String)
  deriving DecidableEq

/-- `str`. -/
def Id.str : Id → String
  | .num n => toString n
  | .text s => s

/-- Two slides in the sections 1 and "1". -/
def exPage : Page String Id String := ⟨["a", "b"], some [.num 1, .text "1"], Id.str, true, some 100, 20⟩

/-- C363. With names of sections that differ but have the same text the button "next section" never ends. -/
theorem section_loop_violation : ∃ s, load exPage 0 = some s ∧ ∀ k, nextSection k exPage s = none := by
  have e : ∀ k, ∀ i : Int, i = 0 ∨ i = 1 → nextLoop 2 ["1", "1"] (some "1") k i = none := by
    intro k
    induction k with
    | zero => exact fun i _ => rfl
    | succ k ih =>
      intro i hi
      rcases hi with rfl | rfl
      · rw [nextLoop, if_pos (by decide)]; exact ih _ (by decide)
      · rw [nextLoop, if_pos (by decide)]; exact ih _ (by decide)
  refine ⟨⟨0, 0, some "a", false, some 100, 0, some "1", [true, false]⟩, by rfl, fun k => ?_⟩
  show (nextLoop 2 ["1", "1"] (some "1") k 0).bind _ = none
  rw [e k 0 (.inl rfl)]
  rfl

/-! ## Non-vacuity -/

/-- Four slides in three sections. -/
def exGood (loop : Bool) : Page String Id String :=
  ⟨["a", "b", "c", "d"], some [.num 1, .num 1, .text "x", .text "y"], Id.str, loop, some 100, 20⟩

theorem exGood_good (loop : Bool) : Good (exGood loop) := by
  refine ⟨by cases loop <;> decide, fun l hl => by cases hl; rfl, fun l hl x hx y hy h => ?_⟩
  cases hl
  simp only [List.mem_cons, List.not_mem_nil, or_false] at hx hy
  rcases hx with rfl | rfl | rfl | rfl <;> rcases hy with rfl | rfl | rfl | rfl <;>
    first
    | rfl
    | (exfalso; revert h; cases loop <;> decide)

/-- From slide 1 the next section is slide 2, and the section before the first one is the last one. -/
example : (do
    let s ← load (exGood true) 1
    let a ← nextSection 5 (exGood true) s
    let b ← previousSection 5 (exGood true) s
    let c ← previousSection 5 (exGood true) a
    pure (s.shown, a.shown, a.active, b.shown, c.shown)) =
    some (some "b", some "c", [false, true, false], some "d", some "a") := by rfl

example : links [Id.num 1, .num 1, .text "x", .text "y"] = [(.num 1, 0), (.text "x", 2), (.text "y", 3)] := by rfl

/-- Without a loop the slideshow stops at the last slide. -/
example : (do
    let s ← load (exGood false) 1
    let a ← run 5 (exGood false) [.startstop, .tick, .tick, .tick] s
    pure (a.shown, a.running, a.timers)) = some (some "d", false, 0) := by rfl

example : ∃ s, load (exGood true) 2 = some s ∧ Shows (exGood true) s 2 ∧ s.running = false ∧ s.timers = 0 :=
  let ⟨s, a, b, c, d, _⟩ := load_shows (exGood true) (exGood_good true) 100 rfl 2 (by decide)
  ⟨s, a, b, c, d⟩

example : ∃ s a, load (exGood true) 2 = some s ∧ run 5 (exGood true) [.last] s = some a ∧ Shows (exGood true) a 3 := by
  obtain ⟨s, a, b, _⟩ := load_shows (exGood true) (exGood_good true) 100 rfl 2 (by decide)
  obtain ⟨_, ⟨c, h, h'⟩, _⟩ := slideshow_buttons 5 (exGood true) (exGood_good true) s 2 b
  exact ⟨s, c, a, h, h'⟩

example : ∃ p, imageSlideshow ["a"] (some [Id.num 1]) Id.str true none 20 = .ok p := ⟨_, rfl⟩

end Mdp.Slideshow
