import Verif.Bi.LayerProps

/-!
# Messages and copies of a `CloneBiLayer`

C141 (outgoing messages), C142 (shared node and copies), C143 (the `use_copies` key of messages).
-/

namespace Bi.Layer

open Py

variable {σ C V : Type}

/-! ### C141 -/

theorem msgsOf_eq (rs : List (LRes C V)) : msgsOf rs = tupleMsgs rs := by
  induction rs with
  | nil => rfl
  | cons r rs ih => cases r <;> simp [msgsOf, tupleMsgs, ih]

theorem msgsOf_pairs : ∀ (rs : List (LRes C V)) (g : Nat → LMsg C V),
    (∀ (i : Nat) r, rs[i]? = some r → ∃ y, r = .pair y (some (g i))) →
    msgsOf rs = (List.range rs.length).map fun i => some (g i) := by
  intro rs
  induction rs with
  | nil => intro g _; rfl
  | cons r rs ih =>
    intro g h
    obtain ⟨y, rfl⟩ := h 0 r rfl
    have := ih (fun i => g (i + 1)) fun i r hr => h (i + 1) r hr
    simp only [msgsOf, this, List.length_cons, List.range_succ_eq_map, List.map_cons, List.map_map]
    rfl

theorem arraysAt_map {ι : Type} (key : Str) (g : ι → LMsg C V) (h : ι → Arr C) : ∀ (L : List ι),
    (∀ i ∈ L, Dict.get (g i) key = some (.other (.arr (h i)))) →
    arraysAt key (L.map fun i => some (g i)) = .ok (L.map h) := by
  intro L
  induction L with
  | nil => intro _; rfl
  | cons i L ih =>
    intro hh
    simp only [List.map_cons, arraysAt, hh i (by simp), ih fun j hj => hh j (by simp [hj])]

theorem arraysAt_ok {key : Str} : ∀ {ms : List (Option (LMsg C V))} {l : List (Arr C)}, arraysAt key ms = .ok l →
    List.Forall₂ (fun m a => ∃ d, m = some d ∧ Dict.get d key = some (.other (.arr a))) ms l := by
  intro ms
  induction ms with
  | nil => intro l h; cases h; exact .nil
  | cons m ms ih =>
    intro l h
    cases m with
    | none => cases h
    | some m =>
      unfold arraysAt at h
      cases hv : Dict.get m key with
      | none => rw [hv] at h; cases h
      | some v =>
        rw [hv] at h
        simp only at h
        cases hr : arraysAt key ms with
        | error e => rw [hr] at h; cases h
        | ok l' =>
          rw [hr] at h
          simp only at h
          split at h
          · cases h
            exact .cons ⟨m, rfl, hv⟩ (ih hr)
          · cases h

/-- Cutting an array and joining the pieces gives the array. -/
theorem pieces_join {n : Nat} (hn : 0 < n) (a : Arr C) (hd : n ∣ a.cols.length) :
    ∃ b, hstack ((List.range n).map fun i => piece n i a) = .ok b ∧ b.rows = a.rows ∧ b.cols = a.cols := by
  obtain ⟨b, h1, h2, h3⟩ := hstack_succeeds (l := (List.range n).map fun i => piece n i a) (n := a.rows)
    (by simp; omega) (by simp [piece])
  refine ⟨b, h1, h2, ?_⟩
  rw [h3, List.map_map]
  have := flatten_blocks a.cols (a.cols.length / n) n
  rw [Nat.mul_div_cancel' hd, List.take_length] at this
  exact this

theorem msgOf_resultOf {y : Option (Arr C)} {m : Option (LMsg C V)} (t : BVal (LVal C V)) (h : truthyMsg m = true) :
    msgOf (resultOf y m t) = m := by
  unfold resultOf
  split
  · rfl
  · first | rfl | (rw [if_pos h]; rfl)

/-- The calls of a run whose incoming message has no flag: the exact inputs. -/
theorem run_calls {nodeId : Option Str} (hg : GoodId nodeId) {f : NodeFn σ C V} {x : Option (Arr C)}
    {m : Option (LMsg C V)} {l l' : LSt σ} {r : LRes C V} (hm : ∀ d, m = some d → NoFlag nodeId d)
    (h : run nodeId f x m l = (.ok r, l')) :
    ∃ rs l1, Called f (given (((List.range l.nodes.size).map (block l.nodes.size · x)).zip (splitMsgs l.nodes.size m)))
        rs l.nodes l1.nodes ∧ rs.length = l.nodes.size ∧ collect nodeId rs l1 = (.ok r, l') := by
  obtain ⟨rs, l1, h1, h2⟩ := run_split hg hm h
  have hl : (((List.range l.nodes.size).map (block l.nodes.size · x)).zip (splitMsgs l.nodes.size m)).length =
      l.nodes.size := by simp [splitMsgs_length]
  obtain ⟨c1, _⟩ := runNodes_called hl h1
  refine ⟨rs, l1, c1, ?_, h2⟩
  have : rs.length = (given (((List.range l.nodes.size).map (block l.nodes.size · x)).zip
      (splitMsgs l.nodes.size m))).length := by
    generalize l.nodes = N at c1
    generalize l1.nodes = N' at c1
    cases N <;> cases N' <;> first | exact c1.elim | exact c1.2.1
  rw [this]
  simp [given, splitMsgs_length]

theorem called_get {f : NodeFn σ C V} {ins : List (Option (Arr C) × Option (LMsg C V))} {rs : List (LRes C V)}
    {N N' : Nodes σ} (hl : ins.length = N.size) (h : Called f ins rs N N') {i : Nat} {r : LRes C V}
    (hr : rs[i]? = some r) : ∃ s s' x m, ins[i]? = some (x, m) ∧ f s x m = (.ok r, s') := by
  have hi := (List.getElem?_eq_some_iff.1 hr).1
  cases N with
  | shared s n =>
    cases N' with
    | copies ss => exact h.elim
    | shared s' n' =>
      obtain ⟨_, h1, t, _, _, ht⟩ := h
      have hin : i < ins.length := by omega
      exact ⟨_, _, _, _, List.getElem?_eq_getElem hin, ht i _ _ r (List.getElem?_eq_getElem hin) hr⟩
  | copies ss =>
    cases N' with
    | shared s n => exact h.elim
    | copies ss' =>
      obtain ⟨h0, h1, ht⟩ := h
      have hin : i < ins.length := by omega
      have his : i < ss.length := by rw [size_copies] at hl; omega
      exact ⟨_, _, _, _, List.getElem?_eq_getElem hin, ht i ss[i] (ss'[i]'(by omega)) _ _ r
        (List.getElem?_eq_getElem his) (List.getElem?_eq_getElem (by omega)) (List.getElem?_eq_getElem hin) hr⟩

/-- **C141**: nodes that hand on their message: the outgoing message has the same entries as the incoming one, whether or
not arrays were cut for the nodes. -/
theorem messages_pass {nodeId : Option Str} (hg : GoodId nodeId) {f : NodeFn σ C V}
    (hf : ∀ s x d r s', f s x (some d) = (.ok r, s') → ∃ y, r = .pair y (some d)) {x : Option (Arr C)}
    {d : LMsg C V} (hd : d ≠ []) {l l' : LSt σ} {r : LRes C V} (hn : 0 < l.nodes.size) (hm : NoFlag nodeId d)
    (h : run nodeId f x (some d) l = (.ok r, l')) :
    ∃ y d', r = .pair y (some d') ∧ ∀ key, SameVal (Dict.get d key) (Dict.get d' key) := by
  have hm' : ∀ d', some d = some d' → NoFlag nodeId d' := by rintro d' ⟨⟩; exact hm
  obtain ⟨rs, l1, c1, c2, h2⟩ := run_calls hg hm' h
  have hlen : (given (((List.range l.nodes.size).map (block l.nodes.size · x)).zip
      (splitMsgs l.nodes.size (some d)))).length = l.nodes.size := by simp [given, splitMsgs_length]
  have hrs : ∀ (i : Nat) q, rs[i]? = some q → ∃ y, q = .pair y (some (nodeMsg l.nodes.size i d)) := by
    intro i q hq
    obtain ⟨s, s', xi, mi, g1, g2⟩ := called_get hlen c1 hq
    have hin : i < l.nodes.size := by rw [← c2]; exact (List.getElem?_eq_some_iff.1 hq).1
    have : mi = some (nodeMsg l.nodes.size i d) := by
      simp only [given, List.getElem?_map, List.getElem?_zip_eq_some, Option.map_eq_some_iff, Prod.exists,
        Prod.mk.injEq] at g1
      obtain ⟨a, b, ⟨_, h2⟩, rfl, rfl⟩ := g1
      obtain ⟨e, d0, rfl⟩ := List.exists_cons_of_ne_nil hd
      simp [splitMsgs, hin] at h2
      rw [← h2]
      rfl
    subst this
    exact hf _ _ _ _ _ g2
  have hms := msgsOf_pairs rs (fun i => nodeMsg l.nodes.size i d) hrs
  rw [c2] at hms
  obtain ⟨m1, y, m2, b1, b2, b3, b4⟩ := collect_ok h2
  have ht : targetOf rs .none = .none := by
    have : ∀ (rs : List (LRes C V)), (∀ q ∈ rs, ∃ y m, q = .pair y m) → targetOf rs BVal.none = .none := by
      intro rs
      induction rs with
      | nil => intro _; rfl
      | cons q rs ih =>
        intro hq
        obtain ⟨y, m, rfl⟩ := hq q (by simp)
        exact ih fun q hq' => hq q (by simp [hq'])
    apply this
    intro q hq
    obtain ⟨i, hi, rfl⟩ := List.getElem_of_mem hq
    obtain ⟨y, e⟩ := hrs i rs[i] (List.getElem?_eq_getElem hi)
    exact ⟨_, _, e⟩
  -- the combined message
  have hcomb : ∃ d', m1 = some d' ∧ d' ≠ [] ∧ (∀ key, SameVal (Dict.get d key) (Dict.get d' key)) ∧
      ∀ key, Dict.get d key = none → Dict.get d' key = none := by
    generalize l.nodes.size = n at hn hms
    rw [hms] at b1
    have hl0 : (List.range n).map (fun i => some (nodeMsg n i d)) =
        some (nodeMsg n 0 d) :: ((List.range (n - 1)).map fun i => some (nodeMsg n (i + 1) d)) := by
      obtain ⟨k, rfl⟩ : ∃ k, n = k + 1 := ⟨n - 1, by omega⟩
      rw [List.range_succ_eq_map, List.map_cons, List.map_map]
      rfl
    have hlast : ∀ hne, ((List.range n).map (fun i => some (nodeMsg n i d))).getLast hne = some (nodeMsg n (n - 1) d) := by
      intro hne
      rw [List.getLast_map (by simp; omega), List.getLast_range]
    have hb1 := b1
    unfold combineMsgs at b1
    rw [hl0] at b1
    simp only at b1
    have hlast' := hlast (by simp; omega)
    simp only [hl0] at hlast'
    rw [hlast'] at b1
    simp only at b1
    split at b1
    · rename_i hr
      cases b1
      have hn1 : n = 1 := by
        simp at hr
        omega
      subst hn1
      refine ⟨_, rfl, ?_, ?_, ?_⟩
      · simpa [nodeMsg] using hd
      · intro key
        rw [get_nodeMsg]
        cases hv : Dict.get d key with
        | none => exact .inl rfl
        | some v =>
          cases v with
          | none => exact .inl rfl
          | int k => exact .inl rfl
          | str s => exact .inl rfl
          | other w =>
            cases w with
            | obj o => exact .inl rfl
            | arr a =>
              refine .inr ⟨a, piece 1 0 a, rfl, by simp [splitValue, Nat.mod_one], rfl, ?_⟩
              simp [piece]
      · intro key hk
        rw [get_nodeMsg, hk]
        rfl
    · rename_i hr
      have hn2 : 2 ≤ n := by
        rcases Nat.lt_or_ge 1 n with h | h
        · omega
        · exfalso
          apply hr
          have : n - 1 = 0 := by omega
          rw [this]
          rfl
      generalize hc : combineLoop _ _ (nodeMsg n (n - 1) d) = q at b1
      cases q with
      | error e => cases b1
      | ok d' =>
        cases b1
        refine ⟨d', rfl, ?_, ?_, ?_⟩
        · rintro rfl
          obtain ⟨e, d0, rfl⟩ := List.exists_cons_of_ne_nil hd
          have := (combineLoop_get hc e.1).2 (splitValue n (n - 1) e.2)
            (by simp [nodeMsg, Dict.get])
          obtain ⟨w, _, hw⟩ := this
          cases hw
        · intro key
          have hk := combineLoop_get hc key
          rw [get_nodeMsg] at hk
          cases hv : Dict.get d key with
          | none =>
            rw [hv] at hk
            rw [hk.1 rfl]
            exact .inl rfl
          | some v =>
            rw [hv] at hk
            obtain ⟨w, hw1, hw2⟩ := hk.2 _ rfl
            rw [hw2]
            unfold combineEntry at hw1
            simp only [get_nodeMsg, hv, Option.map_some] at hw1
            cases v with
            | none => cases hw1; exact .inl rfl
            | int k => cases hw1; exact .inl rfl
            | str s => cases hw1; exact .inl rfl
            | other w' =>
              cases w' with
              | obj o => cases hw1; exact .inl rfl
              | arr a =>
                by_cases hda : a.cols.length % n = 0
                · have hdv := Nat.dvd_of_mod_eq_zero hda
                  simp only [splitValue, hda, if_true] at hw1
                  have hne : combineEntry.sameArr (V := V) (piece n (n - 1) a) (.other (.arr (piece n 0 a))) = false := by
                    simp [combineEntry.sameArr, piece]
                    omega
                  rw [hne] at hw1
                  rw [← hl0, arraysAt_map key (fun i => nodeMsg n i d) (fun i => piece n i a) (List.range n)
                    (fun i _ => by rw [get_nodeMsg, hv]; simp [splitValue, hda])] at hw1
                  obtain ⟨b, e1, e2, e3⟩ := pieces_join hn a hdv
                  simp only [e1] at hw1
                  cases hw1
                  exact .inr ⟨a, b, rfl, rfl, e2.symm, e3.symm⟩
                · simp only [splitValue, hda, if_false] at hw1
                  have hne : combineEntry.sameArr (V := V) a (.other (.arr a)) = true := by
                    simp [combineEntry.sameArr]
                  rw [hne] at hw1
                  cases hw1
                  exact .inl rfl
        · intro key hk
          exact (combineLoop_get hc key).1 (by rw [get_nodeMsg, hk]; rfl)
  obtain ⟨d', rfl, g1, g2, g3⟩ := hcomb
  have hnf : ∀ d0, some d' = some d0 → NoFlag nodeId d0 := by
    rintro d0 ⟨⟩
    exact ⟨g3 _ hm.1, fun k hk => g3 _ (hm.2 k hk)⟩
  rcases flagOf_noFlag (σ := σ) hg hnf with ⟨e, he⟩ | he
  · rw [he l1] at b3; cases b3
  · rw [he l1] at b3
    cases b3
    refine ⟨y, d', ?_, g2⟩
    rw [b4, ht]
    unfold resultOf
    obtain ⟨e, d0, rfl⟩ := List.exists_cons_of_ne_nil g1
    simp [BVal.isSome, truthyMsg]

/-- The outgoing message when at least two nodes give messages and none mentions the flag: it has the keys of the
last message; an array there that is not the very array of the first message is replaced by the columns of the arrays of
all messages side by side; every other value is that of the last message. -/
theorem collect_message {nodeId : Option Str} (hg : GoodId nodeId) {rs : List (LRes C V)} {l l' : LSt σ} {r : LRes C V}
    (hq : ∀ d, some d ∈ tupleMsgs rs → NoFlag nodeId d) {first last : LMsg C V} {mid : List (Option (LMsg C V))}
    (hms : tupleMsgs rs = some first :: mid ++ [some last]) (h : collect nodeId rs l = (.ok r, l')) :
    l' = l ∧ (msgOf r = none → last = []) ∧ ∀ m, msgOf r = some m → ∀ key,
      (Dict.get last key = none → Dict.get m key = none) ∧
      ∀ v, Dict.get last key = some v → ∃ w, Dict.get first key = some w ∧
        ((∃ a, v = .other (.arr a) ∧ (∀ b, w = .other (.arr b) → a.id ≠ b.id) ∧
            ∃ (as : List (Arr C)) (c : Arr C), List.Forall₂ (fun m a => ∃ d, m = some d ∧
                Dict.get d key = some (.other (.arr a))) (tupleMsgs rs) as ∧
              Dict.get m key = some (.other (.arr c)) ∧ (∀ a ∈ as, a.rows = c.rows) ∧
              c.cols = (as.map Arr.cols).flatten) ∨
          ((¬ IsArr v ∨ ∃ a b, v = .other (.arr a) ∧ w = .other (.arr b) ∧ a.id = b.id) ∧ Dict.get m key = some v)) := by
  obtain ⟨m1, y, m2, b1, b2, b3, rfl⟩ := collect_ok h
  rw [msgsOf_eq, hms] at b1
  have hlst : ∀ hne, (some first :: (mid ++ [some last])).getLast hne = some last := by
    intro hne
    rw [List.getLast_cons (by simp), List.getLast_append_of_right_ne_nil _ _ (by simp)]
    rfl
  have hc : ∃ d, m1 = some d ∧ combineLoop (some first :: (mid ++ [some last])) (some first) last = .ok d := by
    rw [List.cons_append] at b1
    unfold combineMsgs at b1
    simp only [hlst] at b1
    rw [if_neg (by simp)] at b1
    cases hc : combineLoop (some first :: (mid ++ [some last])) (some first) last with
    | error e => rw [hc] at b1; cases b1
    | ok d => rw [hc] at b1; cases b1; exact ⟨d, rfl, rfl⟩
  obtain ⟨d, rfl, hc⟩ := hc
  have hnf : ∀ d0, some d = some d0 → NoFlag nodeId d0 := by
    rintro d0 ⟨⟩
    rw [List.cons_append] at b1
    exact combineMsgs_noFlag b1 (by rw [← List.cons_append, ← hms]; exact hq)
  rcases flagOf_noFlag (σ := σ) hg hnf with ⟨e, he⟩ | he
  · rw [he l] at b3; cases b3
  rw [he l] at b3
  cases b3
  have hkey : ∀ key, (Dict.get last key = none → Dict.get d key = none) ∧
      ∀ v, Dict.get last key = some v → ∃ w, Dict.get first key = some w ∧
        ((∃ a, v = .other (.arr a) ∧ (∀ b, w = .other (.arr b) → a.id ≠ b.id) ∧
            ∃ (as : List (Arr C)) (c : Arr C), List.Forall₂ (fun m a => ∃ d, m = some d ∧
                Dict.get d key = some (.other (.arr a))) (tupleMsgs rs) as ∧
              Dict.get d key = some (.other (.arr c)) ∧ (∀ a ∈ as, a.rows = c.rows) ∧
              c.cols = (as.map Arr.cols).flatten) ∨
          ((¬ IsArr v ∨ ∃ a b, v = .other (.arr a) ∧ w = .other (.arr b) ∧ a.id = b.id) ∧ Dict.get d key = some v)) := by
    intro key
    refine ⟨(combineLoop_get hc key).1, ?_⟩
    intro v hv
    obtain ⟨w, hw1, hw2⟩ := (combineLoop_get hc key).2 v hv
    unfold combineEntry at hw1
    simp only at hw1
    cases hf : Dict.get first key with
    | none => rw [hf] at hw1; cases hw1
    | some other =>
      rw [hf] at hw1
      simp only at hw1
      refine ⟨other, rfl, ?_⟩
      rw [hw2]
      split at hw1
      · rename_i a
        by_cases hs : combineEntry.sameArr (V := V) a other = true
        · rw [if_pos hs] at hw1
          cases hw1
          right
          refine ⟨.inr ?_, rfl⟩
          unfold combineEntry.sameArr at hs
          split at hs
          · rename_i b
            exact ⟨a, b, rfl, rfl, by simpa using hs⟩
          · cases hs
        · rw [if_neg hs] at hw1
          left
          refine ⟨a, rfl, ?_, ?_⟩
          · rintro b rfl
            simpa [combineEntry.sameArr] using hs
          · cases ha : arraysAt key (some first :: (mid ++ [some last])) with
            | error e => rw [ha] at hw1; cases hw1
            | ok as =>
              rw [ha] at hw1
              simp only at hw1
              cases hs2 : hstack as with
              | error e => rw [hs2] at hw1; cases hw1
              | ok c =>
                rw [hs2] at hw1
                cases hw1
                obtain ⟨_, e2, e3⟩ := hstack_ok hs2
                refine ⟨as, c, ?_, rfl, e2, e3⟩
                rw [hms]
                exact arraysAt_ok ha
      · rename_i hna
        cases hw1
        right
        refine ⟨.inl ?_, rfl⟩
        rintro ⟨a, rfl⟩
        exact hna a rfl
  refine ⟨rfl, ?_, ?_⟩
  · intro hn
    cases last with
    | nil => rfl
    | cons e last =>
      exfalso
      have : truthyMsg (some d) = true := by
        cases d with
        | nil =>
          obtain ⟨w, _, hw⟩ := (combineLoop_get hc e.1).2 e.2 (by simp [Dict.get])
          cases hw
        | cons a b => rfl
      rw [msgOf_resultOf _ this] at hn
      cases hn
  · intro m hm key
    have : m = d := by
      unfold resultOf at hm
      split at hm
      · cases hm; rfl
      · split at hm
        · cases hm; rfl
        · cases hm
    subst this
    exact hkey key

/-- **C141**: the outgoing message of a run in which at least two nodes give messages and none mentions the flag: it has the
keys of the last message; an array there that is not the very array of the first message is replaced by the columns of the
arrays of all messages side by side; every other value is that of the last message. -/
theorem outgoing_message {nodeId : Option Str} (hg : GoodId nodeId) {f : NodeFn σ C V} (hq : Quiet nodeId f)
    {x : Option (Arr C)} {m : Option (LMsg C V)} {l l' : LSt σ} {r : LRes C V}
    (hm : ∀ d, m = some d → NoFlag nodeId d) (h : run nodeId f x m l = (.ok r, l')) :
    ∃ ins rs, ins.length = l.nodes.size ∧ Called f ins rs l.nodes l'.nodes ∧
      ∀ first mid last, tupleMsgs rs = some first :: mid ++ [some last] →
      (msgOf r = none → last = []) ∧ ∀ m, msgOf r = some m → ∀ key,
      (Dict.get last key = none → Dict.get m key = none) ∧
      ∀ v, Dict.get last key = some v → ∃ w, Dict.get first key = some w ∧
        ((∃ a, v = .other (.arr a) ∧ (∀ b, w = .other (.arr b) → a.id ≠ b.id) ∧
            ∃ (as : List (Arr C)) (c : Arr C), List.Forall₂ (fun m a => ∃ d, m = some d ∧
                Dict.get d key = some (.other (.arr a))) (tupleMsgs rs) as ∧
              Dict.get m key = some (.other (.arr c)) ∧ (∀ a ∈ as, a.rows = c.rows) ∧
              c.cols = (as.map Arr.cols).flatten) ∨
          ((¬ IsArr v ∨ ∃ a b, v = .other (.arr a) ∧ w = .other (.arr b) ∧ a.id = b.id) ∧ Dict.get m key = some v)) := by
  obtain ⟨rs, l1, c1, c2, h2⟩ := run_calls hg hm h
  have hlen : (given (((List.range l.nodes.size).map (block l.nodes.size · x)).zip
      (splitMsgs l.nodes.size m))).length = l.nodes.size := by simp [given, splitMsgs_length]
  have hnf : ∀ d, some d ∈ tupleMsgs rs → NoFlag nodeId d := by
    rw [← msgsOf_eq]
    exact called_quiet hq hlen c1
  have hl : l' = l1 := by
    obtain ⟨m1, y, m2, b1, b2, b3, rfl⟩ := collect_ok h2
    have hf : ∀ d, m1 = some d → NoFlag nodeId d := by
      rintro d rfl
      exact combineMsgs_noFlag b1 (called_quiet hq hlen c1)
    rcases flagOf_noFlag (σ := σ) hg hf with ⟨e, he⟩ | he
    · rw [he l1] at b3; cases b3
    · rw [he l1] at b3; cases b3; rfl
  subst hl
  refine ⟨_, rs, hlen, c1, ?_⟩
  intro first mid last hms
  exact (collect_message hg hnf hms h2).2

/-- Non-vacuity: nodes that hand on their message, which has no flag for the layer. -/
example : Quiet (σ := Nat) (C := Char) (V := Nat) (some ['l']) (fun s x _ => (.ok (.pair x (some [(['k'], .int 2)])), s)) := by
  rintro s x m r s' d h hd
  cases h
  cases hd
  refine ⟨by decide, ?_⟩
  rintro k ⟨k', id, e, rfl⟩
  cases e
  simp [Dict.get, addr]

/-- Two nodes that give an array of their own: the arrays are joined. -/
example : (fun q : Except Err (LRes Char Nat) × LSt Nat => match q.1 with
      | .ok (.pair _ (some m)) => m.map fun e => (e.1, match e.2 with
          | .other (.arr a) => a.cols
          | _ => [])
      | _ => [])
    (collect none [.pair none (some [(['k'], .other (.arr ⟨[1], 3, ['e', 'f']⟩))]),
      .pair none (some [(['k'], .other (.arr ⟨[2], 3, ['g']⟩))])] ⟨.shared 0 2, false⟩) =
    [(['k'], ['e', 'f', 'g'])] := by decide

/-! ### C142 -/

/-- Nodes that keep their state, such as trained nodes that are executed. -/
theorem runShared_keep {f : NodeFn σ C V} (hf : ∀ s x m, (f s x m).2 = s) (s : σ) :
    ∀ ins : List (Option (Arr C) × Option (LMsg C V)),
      (runShared f s ins).2 = s ∧ runCopies f (List.replicate ins.length s) ins =
        ((runShared f s ins).1, List.replicate ins.length s) := by
  intro ins
  induction ins with
  | nil => exact ⟨rfl, rfl⟩
  | cons p ins ih =>
    obtain ⟨x, m⟩ := p
    have h := hf s x (orNone m)
    simp only [runShared, runCopies, List.length_cons, List.replicate_succ]
    generalize f s x (orNone m) = q at h ⊢
    obtain ⟨q, s'⟩ := q
    subst h
    cases q with
    | error e => exact ⟨rfl, rfl⟩
    | ok y =>
      simp only
      rw [ih.2]
      generalize hr : runShared f s' ins = q at ih ⊢
      obtain ⟨q, s''⟩ := q
      obtain ⟨rfl, _⟩ := ih
      cases q <;> exact ⟨rfl, rfl⟩

theorem collect_fst {nodeId : Option Str} (hg : GoodId nodeId) {rs : List (LRes C V)}
    (hq : ∀ d, some d ∈ msgsOf rs → NoFlag nodeId d) (l l' : LSt σ) :
    (collect nodeId rs l).1 = (collect nodeId rs l').1 ∧ (collect nodeId rs l).2 = l := by
  unfold collect
  simp only [M.bind_def, M.lift_def]
  cases hc : combineMsgs (msgsOf rs) with
  | error e => exact ⟨rfl, rfl⟩
  | ok m =>
    simp only
    cases joinData (rs.map dataOf) with
    | error e => exact ⟨rfl, rfl⟩
    | ok y =>
      simp only
      have hf : ∀ d, m = some d → NoFlag nodeId d := by
        rintro d rfl
        exact combineMsgs_noFlag hc hq
      rcases flagOf_noFlag (σ := σ) hg hf with ⟨e, he⟩ | he
      · rw [he, he]; exact ⟨rfl, rfl⟩
      · rw [he, he]; exact ⟨rfl, rfl⟩

/-- **C142**: a layer of copies made from a node gives the same results and exceptions as the layer that shares the node,
if calls leave the state of nodes alone (trained nodes that are executed) and no message mentions the flag. -/
theorem copies_same {nodeId : Option Str} (hg : GoodId nodeId) {f : NodeFn σ C V} (hf : ∀ s x m, (f s x m).2 = s)
    (hq : Quiet nodeId f) (x : Option (Arr C)) {m : Option (LMsg C V)} (hm : ∀ d, m = some d → NoFlag nodeId d) (s : σ)
    (n : Nat) (tr : Bool) :
    (run nodeId f x m ⟨.shared s n, tr⟩).1 = (run nodeId f x m ⟨.copies (List.replicate n s), tr⟩).1 ∧
      (run nodeId f x m ⟨.shared s n, tr⟩).2 = ⟨.shared s n, tr⟩ ∧
      (run nodeId f x m ⟨.copies (List.replicate n s), tr⟩).2 = ⟨.copies (List.replicate n s), tr⟩ := by
  rcases flagOf_noFlag (σ := σ) hg hm with ⟨e, he⟩ | he
  · unfold run
    simp only [M.bind_def, he]
    exact ⟨trivial, trivial, trivial⟩
  · have hrun : ∀ l : LSt σ, run nodeId f x m l = (runNodes f (((List.range l.nodes.size).map
        (block l.nodes.size · x)).zip (splitMsgs l.nodes.size m)) >>= collect nodeId) l := by
      intro l
      unfold run
      simp only [M.bind_def, M.get_def, he]
    simp only [hrun]
    have h1 : (Nodes.shared s n).size = n := rfl
    have h2 : (Nodes.copies (List.replicate n s)).size = n := by simp [Nodes.size]
    simp only [h1, h2]
    have hl : (((List.range n).map (block n · x)).zip (splitMsgs n m)).length = n := by simp [splitMsgs_length]
    generalize hins : ((List.range n).map (block n · x)).zip (splitMsgs n m) = ins at hl
    obtain ⟨k1, k2⟩ := runShared_keep hf s ins
    rw [hl] at k2
    have e1 : runNodes f ins (⟨.shared s n, tr⟩ : LSt σ) = ((runShared f s ins).1, ⟨.shared s n, tr⟩) := by
      simp only [runNodes, k1]
    have e2 : runNodes f ins (⟨.copies (List.replicate n s), tr⟩ : LSt σ) =
        ((runShared f s ins).1, ⟨.copies (List.replicate n s), tr⟩) := by
      simp only [runNodes, k2]
    simp only [M.bind_def, e1, e2]
    generalize hr : (runShared f s ins).1 = q at e1
    cases q with
    | error e => exact ⟨rfl, rfl, rfl⟩
    | ok rs =>
      simp only
      obtain ⟨c1, _⟩ := runNodes_called (by simp [hl, Nodes.size]) e1
      have hlen : (given ins).length = (Nodes.shared s n).size := by simp [given, hl, Nodes.size]
      have hnf := called_quiet hq hlen c1
      have := collect_fst hg hnf (σ := σ)
      exact ⟨(this _ _).1, (this _ ⟨.shared s n, tr⟩).2, (this _ ⟨.shared s n, tr⟩).2⟩

/-- **C142**: `use_copies = True` gives every position a copy of the node. -/
theorem switch_to_copies (s : σ) (n : Nat) (tr : Bool) :
    setUseCopies true ⟨.shared s n, tr⟩ = (.ok (), ⟨.copies (List.replicate n s), tr⟩) := rfl

/-- **C142** fails for the way back: `use_copies = False` on a layer of copies always raises, the documented exception
while the layer is training and `AttributeError` otherwise, and the layer keeps its copies. -/
theorem switch_back_false (ss : List σ) (tr : Bool) :
    setUseCopies false ⟨.copies ss, tr⟩ = (.error (if tr then .layer else .attributeError), ⟨.copies ss, tr⟩) := by
  cases tr <;> rfl

/-! ### C143 -/

theorem setTrue_shared (s : σ) (n : Nat) (tr : Bool) :
    setUseCopies true ⟨.shared s n, tr⟩ = setUseCopies true ⟨.copies (List.replicate n s), tr⟩ := rfl

/-- **C143**: a true value under the plain key `use_copies` of a message makes the layer use copies before its nodes are
called. -/
theorem incoming_flag {nodeId : Option Str} (hg : GoodId nodeId) (f : NodeFn σ C V) (x : Option (Arr C)) {d : LMsg C V}
    {v : BVal (LVal C V)} (hd : Dict.Ok d) (hv : Dict.get d kCopies = some v) (ht : v.truthy = true)
    (hn : ∀ k, IsFor nodeId k kCopies → Dict.get d k = none) (s : σ) (n : Nat) (tr : Bool)
    (hw : ∃ ids, getMsgIdKeys nodeId d = .ok ids) :
    run nodeId f x (some d) ⟨.shared s n, tr⟩ = run nodeId f x (some d) ⟨.copies (List.replicate n s), tr⟩ := by
  obtain ⟨ids, hi⟩ := hw
  obtain ⟨a1, _, _, _⟩ := extractKey_spec hg kCopies (Inv.start hg hd hi)
  have hmine : mine nodeId d kCopies = none := by
    unfold mine
    cases nodeId with
    | none => rfl
    | some id => exact hn _ ⟨id, rfl, rfl⟩
  rw [hmine, hv] at a1
  have hs : v.isSome = true := by cases v <;> first | rfl | cases ht
  have hflag : flagOf (σ := σ) nodeId (some d) ⟨.shared s n, tr⟩ =
      flagOf nodeId (some d) ⟨.copies (List.replicate n s), tr⟩ := by
    unfold flagOf extractFlag
    simp only [M.bind_def, M.lift_def, hi]
    have e : (extractKey kCopies d ids).1 = v := a1
    rw [e, if_pos hs, ht]
    rfl
  unfold run
  simp only [M.bind_def, hflag]

theorem run_useCopies {nodeId : Option Str} (hg : GoodId nodeId) {f : NodeFn σ C V} (hq : Quiet nodeId f)
    (x : Option (Arr C)) {m : Option (LMsg C V)} (hm : ∀ d, m = some d → NoFlag nodeId d) (l : LSt σ) :
    (run nodeId f x m l).2.nodes.useCopies = l.nodes.useCopies := by
  rcases flagOf_noFlag (σ := σ) hg hm with ⟨e, he⟩ | he
  · unfold run
    simp only [M.bind_def, he]
  · unfold run
    simp only [M.bind_def, M.get_def, he]
    have hl : (((List.range l.nodes.size).map (block l.nodes.size · x)).zip (splitMsgs l.nodes.size m)).length =
      l.nodes.size := by simp [splitMsgs_length]
    generalize hins : ((List.range l.nodes.size).map (block l.nodes.size · x)).zip (splitMsgs l.nodes.size m) = ins at hl
    have hk : (runNodes f ins l).2.nodes.useCopies = l.nodes.useCopies := by
      unfold runNodes
      cases l.nodes <;> rfl
    generalize hr : runNodes f ins l = q at hk ⊢
    obtain ⟨q, l1⟩ := q
    cases q with
    | error e => exact hk
    | ok rs =>
      simp only
      obtain ⟨c1, _⟩ := runNodes_called hl hr
      have hlen : (given ins).length = l.nodes.size := by simp [given, hl]
      rw [(collect_fst hg (called_quiet hq hlen c1) l1 l1).2]
      exact hk

/-- **C143** fails for a message whose key is addressed to the layer, as in the documentation of targeted entries: when the
layer is executed with a message that has no plain key `use_copies`, the flag addressed to the layer is dropped, whatever
its value is, and the layer does not change between copies and a shared node. -/
theorem id_flag_ignored_false {nodeId : Option Str} (hg : GoodId nodeId) {f : NodeFn σ C V} (hq : Quiet nodeId f)
    (x : Option (Arr C)) {d : LMsg C V} (hd : Dict.Ok d) (hv : Dict.get d kCopies = none) (l : LSt σ) :
    (nodeExecute nodeId f x d l).2.nodes.useCopies = l.nodes.useCopies := by
  unfold nodeExecute
  simp only [M.bind_def, M.lift_def]
  cases hi : getMsgIdKeys nodeId d with
  | error e => rfl
  | ok ids =>
    simp only
    obtain ⟨_, a2, a3, a4⟩ := extractKey_spec hg kTarget (Inv.start hg hd hi)
    generalize extractKey kTarget d ids = t at a2 a3 a4 ⊢
    obtain ⟨_, b2, b3, b4⟩ := extractKey_spec hg kMethod a4
    generalize extractKey kMethod t.2.1 t.2.2 = n at b2 b3 b4 ⊢
    obtain ⟨c1, c2, _, _⟩ := argsLoop_spec hg [kSelf, kX, kMsg]
      (n.2.1.filter fun e => decide (e.1 ∈ [kSelf, kX, kMsg])) b4
    have hnf : NoFlag nodeId (extractArgs [kSelf, kX, kMsg] n.2.1 n.2.2).1 := by
      have h0 : ∀ k, ¬ Addressed nodeId k → Dict.get d k = none →
          Dict.get (extractArgs [kSelf, kX, kMsg] n.2.1 n.2.2).1 k = none := by
        intro k hk h0
        unfold extractArgs
        rw [c2 k hk, b3 k fun h => hk ⟨_, h⟩, a3 k fun h => hk ⟨_, h⟩, h0]
      refine ⟨?_, c1⟩
      by_cases ha : Addressed nodeId kCopies
      · exact c1 _ ha
      · exact h0 _ ha hv
    split
    · rfl
    · rename_i hb
      have := run_useCopies hg hq x (m := some (extractArgs [kSelf, kX, kMsg] n.2.1 n.2.2).1)
        (by rintro d' ⟨⟩; exact hnf) l
      simp only [M.bind_def]
      generalize run nodeId f x (some (extractArgs [kSelf, kX, kMsg] n.2.1 n.2.2).1) l = q at this ⊢
      obtain ⟨q, l'⟩ := q
      cases q <;> exact this

/-- **C143**, the message the nodes give back: if the combined message has a true value addressed to the layer, the layer
uses copies afterwards, and the outgoing message has no such entry. -/
theorem outgoing_flag {nodeId : Option Str} (hg : GoodId nodeId) {f : NodeFn σ C V} {x : Option (Arr C)}
    {m : Option (LMsg C V)} {l l' : LSt σ} {r : LRes C V} (hm : ∀ d, m = some d → NoFlag nodeId d)
    (h : run nodeId f x m l = (.ok r, l')) :
    ∃ ins rs nodes1, ins.length = l.nodes.size ∧ Called f ins rs l.nodes nodes1 ∧
      ∀ d v k, (tupleMsgs rs).getLast? = some (some d) → Dict.Ok d → IsFor nodeId k kCopies →
        Dict.get d k = some v → ¬ IsArr v → v.truthy = true →
        l'.nodes.useCopies = true ∧ ∀ m', msgOf r = some m' → Dict.get m' k = none := by
  obtain ⟨rs, l1, c1, c2, h2⟩ := run_calls hg hm h
  refine ⟨_, rs, l1.nodes, by simp [given, splitMsgs_length], c1, ?_⟩
  intro d v k hlast hok hk hv hna ht
  obtain ⟨m1, y, m2, b1, b2, b3, rfl⟩ := collect_ok h2
  rw [msgsOf_eq] at b1
  -- the combined message has the keys of the last one, and this value
  have hc : ∃ d1, m1 = some d1 ∧ Dict.Ok d1 ∧ Dict.get d1 k = some v := by
    generalize tupleMsgs rs = ms at b1 hlast
    cases ms with
    | nil => cases hlast
    | cons first rest =>
      unfold combineMsgs at b1
      have hl : (first :: rest).getLast (by simp) = some d := by
        rw [List.getLast?_eq_some_getLast (by simp)] at hlast
        exact Option.some_injective _ hlast
      simp only [hl] at b1
      split at b1
      · rename_i hr
        subst hr
        cases b1
        simp only [List.getLast_singleton] at hl
        exact ⟨d, hl, hok, hv⟩
      · cases hcl : combineLoop (first :: rest) first d with
        | error e => rw [hcl] at b1; cases b1
        | ok d1 =>
          rw [hcl] at b1
          cases b1
          refine ⟨d1, rfl, ?_, ?_⟩
          · have : ∀ {a b : LMsg C V}, combineLoop (first :: rest) first a = .ok b → Dict.keys b = Dict.keys a := by
              intro a
              induction a with
              | nil => intro b hb; cases hb; rfl
              | cons e a ih =>
                intro b hb
                obtain ⟨k', v'⟩ := e
                unfold combineLoop at hb
                cases h1 : combineEntry (first :: rest) first k' v' with
                | error e => rw [h1] at hb; cases hb
                | ok w =>
                  rw [h1] at hb
                  simp only at hb
                  cases h2 : combineLoop (first :: rest) first a with
                  | error e => rw [h2] at hb; cases hb
                  | ok b' =>
                    rw [h2] at hb
                    cases hb
                    simp only [Dict.keys, List.map_cons]
                    rw [show b'.map Prod.fst = a.map Prod.fst from ih h2]
            unfold Dict.Ok
            rw [this hcl]
            exact hok
          · obtain ⟨w, w1, w2⟩ := (combineLoop_get hcl k).2 v hv
            rw [w2]
            unfold combineEntry at w1
            cases first with
            | none => cases w1
            | some f0 =>
              simp only at w1
              cases hf0 : Dict.get f0 k with
              | none => rw [hf0] at w1; cases w1
              | some o =>
                rw [hf0] at w1
                simp only at w1
                split at w1
                · exact absurd ⟨_, rfl⟩ hna
                · cases w1; rfl
  obtain ⟨d1, rfl, ok1, hv1⟩ := hc
  unfold flagOf extractFlag at b3
  simp only [M.bind_def, M.lift_def] at b3
  cases hi : getMsgIdKeys nodeId d1 with
  | error e => rw [hi] at b3; cases b3
  | ok ids =>
    rw [hi] at b3
    simp only at b3
    obtain ⟨a1, a2, _, _⟩ := extractKey_spec hg kCopies (Inv.start hg ok1 hi)
    rw [mine_get hk, hv1] at a1
    have e : (extractKey kCopies d1 ids).1 = v := a1
    have hs : v.isSome = true := by cases v <;> first | rfl | cases ht
    rw [e, if_pos hs, ht] at b3
    have hset : ∃ l2, setUseCopies true l1 = (.ok (), l2) ∧ l2.nodes.useCopies = true := by
      unfold setUseCopies
      cases hn : l1.nodes with
      | shared s n => exact ⟨_, rfl, rfl⟩
      | copies ss => exact ⟨_, rfl, by rw [hn]; rfl⟩
    obtain ⟨l2, hs1, hs2⟩ := hset
    simp only [M.bind_def, hs1] at b3
    cases b3
    refine ⟨hs2, ?_⟩
    intro m' hm'
    have : m' = (extractKey kCopies d1 ids).2.1 := by
      unfold resultOf at hm'
      split at hm'
      · cases hm'; rfl
      · split at hm'
        · cases hm'; rfl
        · cases hm'
    rw [this]
    exact a2 k hk

/-- The addressed flag is dropped, the plain one works: a layer `l` with two positions. -/
example : (nodeExecute (σ := Nat) (C := Char) (V := Nat) (some ['l']) (fun s x _ => (.ok (.single x), s))
      (some ⟨[], 1, ['e', 'f']⟩) [(addr ['l'] kCopies, .int 1)] ⟨.shared 0 2, false⟩).2.nodes.useCopies = false ∧
    (nodeExecute (σ := Nat) (C := Char) (V := Nat) (some ['l']) (fun s x _ => (.ok (.single x), s))
      (some ⟨[], 1, ['e', 'f']⟩) [(kCopies, .int 1)] ⟨.shared 0 2, false⟩).2.nodes.useCopies = true := by
  constructor <;> decide

/-- Nodes that give the flag back. -/
example : (run (σ := Nat) (C := Char) (V := Nat) (some ['l']) (fun s x _ => (.ok (.pair x (some
      [(addr ['l'] kCopies, .int 1), (['k'], .int 3)])), s)) (some ⟨[], 1, ['e', 'f']⟩) none
      ⟨.shared 0 2, false⟩).2.nodes.useCopies = true := by decide

end Bi.Layer
