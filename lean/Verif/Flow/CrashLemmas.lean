import Verif.Flow.Crash
import Verif.Flow.TrainProps

/-!
# The functions with dumps do what the functions without do
-/

namespace Mdp.Flow

open Py Mdp.Node

variable {σ α β : Type}

/-- A FlowExceptionCR was raised. -/
def isCR {r : Type} : Except Err r → Bool
  | .error (.flowCR _ _) => true
  | _ => false

theorem put_append (pre rest : List (Nd σ α β)) (nd : Nd σ α β) (ds : List (List (Nd σ α β))) (i : Nat) (hi : i = pre.length)
    (s : St σ α β) : World.put ⟨pre ++ nd :: rest, ds⟩ i s = ⟨pre ++ ⟨nd.K, s⟩ :: rest, ds⟩ := by
  subst hi
  simp only [World.put]
  congr 1
  rw [List.modify_eq_set_getElem?]
  simp

theorem get_append (pre rest : List (Nd σ α β)) (nd : Nd σ α β) (i : Nat) (hi : i = pre.length) :
    (pre ++ nd :: rest)[i]? = some nd := by subst hi; simp

theorem propagate_in {r : Type} (rec : Bool) (i : Nat) (e : Err) (w : World σ α β) (h : i < w.flow.length) :
    propagate (r := r) rec i e w = (.error (.flowCR i e), ⟨w.flow, w.dumps ++ cond rec [w.flow] []⟩) := by
  unfold propagate
  rw [if_pos h]
  cases rec <;> simp

theorem execSeqW_eq (rec : Bool) (k i : Nat) (x : Arr α) (pre l post : List (Nd σ α β)) (ds : List (List (Nd σ α β)))
    (hi : i = pre.length) (hp : post = [] ∨ k ≤ l.length) :
    execSeqW rec k i x ⟨pre ++ l ++ post, ds⟩ = ((execSeq i k l x).1, ⟨pre ++ (execSeq i k l x).2 ++ post,
      ds ++ cond (rec && isCR (execSeq i k l x).1) [pre ++ (execSeq i k l x).2 ++ post] []⟩) := by
  induction k generalizing i x pre l with
  | zero => simp [execSeqW, execSeq, isCR]
  | succ k ih =>
    cases l with
    | nil =>
      rcases hp with rfl | hp
      · simp only [execSeqW, execSeq, List.append_nil]
        rw [List.getElem?_eq_none (by omega)]
        simp [propagate, hi, isCR]
      · simp at hp
    | cons nd r =>
      simp only [execSeqW, execSeq]
      rw [List.append_assoc, List.cons_append, get_append pre (r ++ post) nd i hi]
      simp only
      obtain ⟨⟨res, s⟩, hx⟩ : ∃ R, execute nd.K x nd.s = R := ⟨_, rfl⟩
      simp only [hx]
      cases res with
      | error e =>
        simp only
        rw [put_append _ _ _ _ _ hi, propagate_in _ _ _ _ (by simp [hi])]
        cases rec <;> simp [isCR]
      | ok y =>
        simp only
        rw [put_append _ _ _ _ _ hi]
        have := ih (i + 1) y (pre ++ [⟨nd.K, s⟩]) r (by simp [hi]) (by simpa using hp)
        simp only [List.append_assoc, List.singleton_append, List.cons_append, List.nil_append] at this ⊢
        rw [this]

theorem execSeq_len (k i : Nat) (l : List (Nd σ α β)) (x : Arr α) : (execSeq i k l x).2.length = l.length :=
  execSeq_length i k l x

/-- What is known about the dumps while a node is trained. -/
def Dumped (rec : Bool) (r : Except Err Unit) (w w' : World σ α β) : Prop :=
  w'.dumps = w.dumps ∨ (rec = true ∧ isCR r = true ∧ w'.dumps = w.dumps ++ [w'.flow])

theorem trainChunksW_eq (rec : Bool) (i : Nat) (cs : List (Arr α × List β)) (pre rest : List (Nd σ α β)) (nd : Nd σ α β)
    (ds : List (List (Nd σ α β))) (hi : i = pre.length) :
    (trainChunksW rec i cs ⟨pre ++ nd :: rest, ds⟩).1 = (trainChunks pre nd cs).1 ∧
    (trainChunksW rec i cs ⟨pre ++ nd :: rest, ds⟩).2.flow = (trainChunks pre nd cs).2.1 ++ (trainChunks pre nd cs).2.2 :: rest ∧
    Dumped rec (trainChunks pre nd cs).1 ⟨pre ++ nd :: rest, ds⟩ (trainChunksW rec i cs ⟨pre ++ nd :: rest, ds⟩).2 := by
  induction cs generalizing pre nd ds with
  | nil => exact ⟨rfl, rfl, .inl rfl⟩
  | cons c r ih =>
    obtain ⟨x, args⟩ := c
    rw [trainChunksW, trainChunks]
    simp only [get_append pre rest nd i hi]
    by_cases ha : nd.K.reqArgs ≠ 0 ∧ nd.K.reqArgs ≠ args.length
    · rw [if_pos ha, if_pos ha]
      exact ⟨rfl, rfl, .inl rfl⟩
    · rw [if_neg ha, if_neg ha]
      have hE := execSeqW_eq rec i 0 x [] pre (nd :: rest) ds rfl (.inr (by omega))
      simp only [List.nil_append] at hE
      have hl := execSeq_len pre.length 0 pre x
      subst hi
      rw [hE]
      rcases he : execSeq 0 pre.length pre x with ⟨res, pre'⟩
      rw [he] at hl
      simp only at hl
      cases res with
      | error e =>
        refine ⟨rfl, rfl, ?_⟩
        unfold Dumped
        cases hb : (rec && isCR (Except.error e : Except Err (Arr α))) with
        | false => left; simp [hb]
        | true =>
          right
          simp only [Bool.and_eq_true] at hb
          refine ⟨hb.1, ?_, ?_⟩
          · cases e <;> simp_all [isCR]
          · simp [hb.1, hb.2]
      | ok v =>
        simp only
        rcases ht : train nd.K v args nd.s with ⟨res, s⟩
        have hnil : cond (rec && isCR (Except.ok v : Except Err (Arr α))) [pre' ++ nd :: rest] [] = [] := by
          simp [isCR]
        simp only [hnil, List.append_nil]
        cases res with
        | error e =>
          simp only
          rw [put_append _ _ _ _ _ hl.symm]
          exact ⟨by trivial, by trivial, .inl rfl⟩
        | ok u =>
          simp only
          rw [put_append _ _ _ _ _ hl.symm]
          obtain ⟨h1, h2, h3⟩ := ih pre' ⟨nd.K, s⟩ ds hl.symm
          exact ⟨h1, h2, h3⟩

theorem trainRoundsW_eq (rec : Bool) (i : Nat) (it : Chunks α β) (n k : Nat) (pre rest : List (Nd σ α β)) (nd : Nd σ α β)
    (ds : List (List (Nd σ α β))) (hi : i = pre.length) (hn : ((nd.K.nPhases : Int) - nd.s.phase).toNat < n) :
    (trainRoundsW rec i it n k ⟨pre ++ nd :: rest, ds⟩).1 = (trainRounds pre nd it k).1 ∧
    (trainRoundsW rec i it n k ⟨pre ++ nd :: rest, ds⟩).2.flow =
      (trainRounds pre nd it k).2.1 ++ (trainRounds pre nd it k).2.2 :: rest ∧
    Dumped rec (trainRounds pre nd it k).1 ⟨pre ++ nd :: rest, ds⟩ (trainRoundsW rec i it n k ⟨pre ++ nd :: rest, ds⟩).2 := by
  induction n generalizing k pre nd ds with
  | zero => omega
  | succ n ih =>
    obtain ⟨h1, h2, h3⟩ := trainChunksW_eq rec i (it k) pre rest nd ds hi
    have hK := trainChunks_K (it k) pre nd
    have hP := trainChunks_phase (it k) pre nd
    have hl := trainChunks_pre (it k) pre nd
    rw [trainRoundsW, trainRounds]
    rcases hc : trainChunks pre nd (it k) with ⟨res, pre', nd'⟩
    rcases hw : trainChunksW rec i (it k) ⟨pre ++ nd :: rest, ds⟩ with ⟨res', fl', ds'⟩
    rw [hc] at hK hP hl
    rw [hc, hw] at h1 h2 h3
    simp only at h1 h2 h3 hK hP hl
    subst h1 h2
    cases res' with
    | error e => exact ⟨rfl, rfl, h3⟩
    | ok u =>
      have hds : ds' = ds := by
        rcases h3 with h3 | ⟨_, h3, _⟩
        · exact h3
        · cases h3
      subst hds
      simp only
      by_cases he : (it k).isEmpty = true
      · rw [if_pos he, if_pos he]
        exact ⟨rfl, rfl, .inl rfl⟩
      · rw [if_neg he, if_neg he]
        simp only [get_append pre' rest nd' i (hi.trans hl.symm)]
        by_cases hr : remaining nd'.K nd'.s > 1
        · rw [if_pos hr, dif_pos hr]
          rcases hs : stopTraining nd'.K nd'.s with ⟨res, s⟩
          cases res with
          | error e =>
            simp only
            rw [put_append _ _ _ _ _ (hi.trans hl.symm)]
            exact ⟨by trivial, by trivial, .inl rfl⟩
          | ok u =>
            simp only
            rw [put_append _ _ _ _ _ (hi.trans hl.symm)]
            have h5 := stopTraining_ok_phase nd'.K nd'.s s hs
            obtain ⟨g1, g2, g3⟩ := ih (k + 1) pre' ⟨nd'.K, s⟩ ds' (hi.trans hl.symm) (by
              simp only
              rw [h5, hK, hP]
              unfold remaining at hr
              rw [hK, hP] at hr
              split at hr <;> omega)
            exact ⟨g1, g2, g3⟩
        · rw [if_neg hr, dif_neg hr]
          exact ⟨rfl, rfl, .inl rfl⟩

/-- The dumps of a call: at most one, of the flow as the call leaves it; exactly one with a FlowExceptionCR; otherwise only
with a FlowException. -/
def Dumps {r : Type} (rec : Bool) (res : Except Err r) (w w' : World σ α β) : Prop :=
  (w'.dumps = w.dumps ∧ (rec = true → isCR res = false)) ∨
  (w'.dumps = w.dumps ++ [w'.flow] ∧ rec = true ∧ ((∃ i e, res = .error (.flowCR i e)) ∨ res = .error .flow))

theorem trainNodeW_eq (rec : Bool) (i : Nat) (d : Elem α β) (pre rest : List (Nd σ α β)) (nd : Nd σ α β)
    (ds : List (List (Nd σ α β))) (hi : i = pre.length) :
    (trainNodeW rec i d ⟨pre ++ nd :: rest, ds⟩).1 = (trainNode pre nd d).1 ∧
    (trainNodeW rec i d ⟨pre ++ nd :: rest, ds⟩).2.flow = (trainNode pre nd d).2.1 ++ (trainNode pre nd d).2.2 :: rest ∧
    Dumps rec (trainNode pre nd d).1 ⟨pre ++ nd :: rest, ds⟩ (trainNodeW rec i d ⟨pre ++ nd :: rest, ds⟩).2 := by
  subst hi
  have hprop : ∀ e, (propagate (r := Unit) rec pre.length e ⟨pre ++ nd :: rest, ds⟩).1 = .error (.flowCR pre.length e) ∧
      (propagate (r := Unit) rec pre.length e ⟨pre ++ nd :: rest, ds⟩).2.flow = pre ++ nd :: rest ∧
      Dumps rec (.error (.flowCR pre.length e) : Except Err Unit) ⟨pre ++ nd :: rest, ds⟩
        (propagate (r := Unit) rec pre.length e ⟨pre ++ nd :: rest, ds⟩).2 := by
    intro e
    rw [propagate_in _ _ _ _ (by simp)]
    refine ⟨rfl, rfl, ?_⟩
    cases rec with
    | false => left; simp
    | true => right; exact ⟨rfl, rfl, .inl ⟨_, _, rfl⟩⟩
  unfold trainNodeW trainNode
  simp only [get_append pre rest nd _ rfl]
  cases d with
  | notIterable => exact hprop _
  | none =>
    simp only
    split
    · exact ⟨rfl, rfl, .inl ⟨rfl, fun _ => rfl⟩⟩
    · split
      · exact ⟨rfl, rfl, .inl ⟨rfl, fun _ => rfl⟩⟩
      · exact hprop _
  | it c =>
    simp only
    by_cases ht : nd.K.trainable = false
    · rw [if_pos ht, if_pos ht]
      exact ⟨rfl, rfl, .inl ⟨rfl, fun _ => rfl⟩⟩
    · rw [if_neg ht, if_neg ht]
      obtain ⟨h1, h2, h3⟩ := trainRoundsW_eq rec pre.length c _ 0 pre rest nd ds rfl (Nat.lt_succ_self _)
      have hl := trainRounds_pre pre nd c 0
      rcases hc : trainRounds pre nd c 0 with ⟨res, pre', nd'⟩
      rcases hw : trainRoundsW rec pre.length c (((nd.K.nPhases : Int) - nd.s.phase).toNat + 1) 0 ⟨pre ++ nd :: rest, ds⟩ with
        ⟨res', fl', ds'⟩
      rw [hc] at hl
      rw [hc, hw] at h1 h2 h3
      simp only at h1 h2 h3 hl
      subst h1 h2
      simp only
      have hno : isCR res' = false → ds' = ds := by
        intro hf
        rcases h3 with h3 | ⟨_, h3, _⟩
        · exact h3
        · rw [hf] at h3; cases h3
      have hprop' : ∀ e, ds' = ds →
          (propagate (r := Unit) rec pre.length e ⟨pre' ++ nd' :: rest, ds'⟩).1 = .error (.flowCR pre.length e) ∧
          (propagate (r := Unit) rec pre.length e ⟨pre' ++ nd' :: rest, ds'⟩).2.flow = pre' ++ nd' :: rest ∧
          Dumps rec (.error (.flowCR pre.length e) : Except Err Unit) ⟨pre ++ nd :: rest, ds⟩
            (propagate (r := Unit) rec pre.length e ⟨pre' ++ nd' :: rest, ds'⟩).2 := by
        rintro e rfl
        rw [propagate_in _ _ _ _ (by simp; omega)]
        refine ⟨rfl, rfl, ?_⟩
        cases rec with
        | false => left; simp
        | true => right; exact ⟨rfl, rfl, .inl ⟨_, _, rfl⟩⟩
      cases res' with
      | ok u => exact ⟨rfl, rfl, .inl ⟨hno rfl, fun _ => rfl⟩⟩
      | error e =>
        cases e with
        | finished => exact ⟨rfl, rfl, .inl ⟨hno rfl, fun _ => rfl⟩⟩
        | flowCR j e =>
          refine ⟨rfl, rfl, ?_⟩
          rcases h3 with h3 | ⟨h3, _, h4⟩
          · exact .inl ⟨h3, fun _ => rfl⟩
          · exact .inr ⟨h4, h3, .inr rfl⟩
        | _ => exact hprop' _ (hno rfl)

theorem trainFromW_eq (rec : Bool) (n i : Nat) (es : List (Elem α β)) (pre rest : List (Nd σ α β)) (ds : List (List (Nd σ α β)))
    (hi : i = pre.length) (hn : n = rest.length) :
    (trainFromW rec n i es ⟨pre ++ rest, ds⟩).1 = (trainFrom pre rest es).1 ∧
    (trainFromW rec n i es ⟨pre ++ rest, ds⟩).2.flow = (trainFrom pre rest es).2 ∧
    ((trainFrom pre rest es).1 ≠ .error .index →
      Dumps rec (trainFrom pre rest es).1 ⟨pre ++ rest, ds⟩ (trainFromW rec n i es ⟨pre ++ rest, ds⟩).2) := by
  subst hn
  induction rest generalizing i es pre ds with
  | nil =>
    simp only [List.length_nil, trainFromW, trainFrom, List.append_nil]
    exact ⟨trivial, trivial, fun _ => .inl ⟨rfl, fun _ => rfl⟩⟩
  | cons nd r ih =>
    cases es with
    | nil => exact ⟨rfl, rfl, fun h => absurd rfl h⟩
    | cons d es =>
      obtain ⟨h1, h2, h3⟩ := trainNodeW_eq rec i d pre r nd ds hi
      rw [List.length_cons, trainFromW, trainFrom]
      rcases hc : trainNode pre nd d with ⟨res, pre', nd'⟩
      rcases hw : trainNodeW rec i d ⟨pre ++ nd :: r, ds⟩ with ⟨res', fl', ds'⟩
      rw [hc, hw] at h1 h2 h3
      simp only at h1 h2 h3
      subst h1 h2
      cases res' with
      | error e => exact ⟨rfl, rfl, fun _ => h3⟩
      | ok u =>
        have hds : ds' = ds := by
          rcases h3 with ⟨h3, _⟩ | ⟨_, _, ⟨_, _, h3⟩ | h3⟩
          · exact h3
          · cases h3
          · cases h3
        subst hds
        have hl := trainNode_pre _ _ _ _ _ _ hc
        have := ih (i + 1) es (pre' ++ [nd']) ds' (by simp [hi, hl])
        simp only [List.append_assoc, List.singleton_append] at this
        exact this

theorem closeLastW_eq (rec : Bool) (fl : List (Nd σ α β)) (ds : List (List (Nd σ α β))) :
    (closeLastW rec ⟨fl, ds⟩).1 = (closeLast fl).1 ∧ (closeLastW rec ⟨fl, ds⟩).2.flow = (closeLast fl).2 ∧
    Dumps rec (closeLast fl).1 ⟨fl, ds⟩ (closeLastW rec ⟨fl, ds⟩).2 := by
  unfold closeLastW closeLast
  rcases List.eq_nil_or_concat fl with rfl | ⟨ini, m, rfl⟩
  · exact ⟨rfl, rfl, .inl ⟨rfl, fun _ => rfl⟩⟩
  · simp only [List.concat_eq_append, List.getLast?_concat, List.dropLast_concat]
    have hp : ∀ s, World.put ⟨ini ++ [m], ds⟩ ((ini ++ [m]).length - 1) s = ⟨ini ++ [⟨m.K, s⟩], ds⟩ := fun s =>
      put_append ini [] m ds _ (by simp) s
    rcases hs : stopTraining m.K m.s with ⟨res, s⟩
    cases res with
    | ok u => simp only; rw [hp]; exact ⟨by trivial, by trivial, .inl ⟨rfl, fun _ => rfl⟩⟩
    | error e =>
      by_cases hf : e = .finished
      · subst hf
        simp only; rw [hp]; exact ⟨by trivial, by trivial, .inl ⟨rfl, fun _ => rfl⟩⟩
      · have : ∀ e, (propagate (r := Unit) rec ((ini ++ [m]).length - 1) e ⟨ini ++ [⟨m.K, s⟩], ds⟩).1 =
              .error (.flowCR ((ini ++ [m]).length - 1) e) ∧
            (propagate (r := Unit) rec ((ini ++ [m]).length - 1) e ⟨ini ++ [⟨m.K, s⟩], ds⟩).2.flow = ini ++ [⟨m.K, s⟩] ∧
            Dumps rec (.error (.flowCR ((ini ++ [m]).length - 1) e) : Except Err Unit) ⟨ini ++ [m], ds⟩
              (propagate (r := Unit) rec ((ini ++ [m]).length - 1) e ⟨ini ++ [⟨m.K, s⟩], ds⟩).2 := by
          intro e
          rw [propagate_in _ _ _ _ (by simp)]
          refine ⟨rfl, rfl, ?_⟩
          cases rec with
          | false => left; simp
          | true => right; exact ⟨rfl, rfl, .inl ⟨_, _, rfl⟩⟩
        cases e
        case finished => exact absurd rfl hf
        all_goals
          simp only
          rw [hp]
          exact this _

theorem invSeqW_eq (rec : Bool) (y : Arr α) (l post : List (Nd σ α β)) (ds : List (List (Nd σ α β))) (i : Nat) :
    ∀ (pre : List (Nd σ α β)), i = pre.length → ∀ (g : Nat), g = i + l.length →
    ∃ w', (match (invSeq i l y).1 with
      | .error _ => (invSeqW rec g y ⟨pre ++ l ++ post, ds⟩) = ((invSeq i l y).1, w')
      | .ok x => invSeqW rec g y ⟨pre ++ l ++ post, ds⟩ = invSeqW rec i x w') ∧
      w'.flow = pre ++ (invSeq i l y).2 ++ post ∧
      w'.dumps = ds ++ cond (rec && isCR (invSeq i l y).1) [pre ++ (invSeq i l y).2 ++ post] [] := by
  induction l generalizing i with
  | nil =>
    intro pre hi g hg
    simp only [List.length_nil, Nat.add_zero] at hg
    subst hg
    exact ⟨⟨pre ++ [] ++ post, ds⟩, rfl, rfl, by simp [invSeq, isCR]⟩
  | cons nd r ih =>
    intro pre hi g hg
    obtain ⟨w', h1, h2, h3⟩ := ih (i + 1) (pre ++ [nd]) (by simp [hi]) g (by rw [hg, List.length_cons]; omega)
    simp only [List.append_assoc, List.singleton_append, List.cons_append, List.nil_append] at h1 h2 h3 ⊢
    rw [invSeq]
    rcases hv : invSeq (i + 1) r y with ⟨res, r'⟩
    rw [hv] at h1 h2 h3
    cases res with
    | error e => exact ⟨w', h1, h2, h3⟩
    | ok z =>
      simp only [isCR, Bool.and_false, cond_false, List.append_nil] at h1 h2 h3 ⊢
      obtain ⟨fl, ds'⟩ := w'
      simp only at h2 h3
      subst h2 h3
      rw [invSeqW] at h1
      simp only [get_append pre (r' ++ post) nd i hi] at h1
      obtain ⟨⟨res, s⟩, hx⟩ : ∃ R, inverse nd.K z nd.s = R := ⟨_, rfl⟩
      simp only [hx] at h1 ⊢
      cases res with
      | error e =>
        simp only at h1 ⊢
        rw [put_append _ _ _ _ _ hi, propagate_in _ _ _ _ (by simp [hi])] at h1
        refine ⟨_, h1, by simp, ?_⟩
        cases rec <;> simp [isCR]
      | ok x =>
        simp only at h1 ⊢
        rw [put_append _ _ _ _ _ hi] at h1
        exact ⟨_, h1, by simp, by simp [isCR]⟩

/-- The dumps of a call without `.flow`. -/
theorem mapChunksW_eq (rec : Bool) (f : Arr α → List (Nd σ α β) → Except Err (Arr α) × List (Nd σ α β))
    (fW : Arr α → World σ α β → Except Err (Arr α) × World σ α β)
    (hf : ∀ x fl ds, (fW x ⟨fl, ds⟩) = ((f x fl).1, ⟨(f x fl).2, ds ++ cond (rec && isCR (f x fl).1) [(f x fl).2] []⟩))
    (xs : List (Arr α)) (fl : List (Nd σ α β)) (ds : List (List (Nd σ α β))) :
    mapChunksW fW xs ⟨fl, ds⟩ = ((mapChunks f xs fl).1, ⟨(mapChunks f xs fl).2,
      ds ++ cond (rec && isCR (mapChunks f xs fl).1) [(mapChunks f xs fl).2] []⟩) := by
  induction xs generalizing fl ds with
  | nil => simp [mapChunksW, mapChunks, isCR]
  | cons x xs ih =>
    rw [mapChunksW, mapChunks, hf]
    obtain ⟨⟨res, fl'⟩, hx⟩ : ∃ R, f x fl = R := ⟨_, rfl⟩
    simp only [hx]
    cases res with
    | error e => cases e <;> rfl
    | ok y =>
      simp only [isCR, Bool.and_false, cond_false, List.append_nil]
      rw [ih]
      obtain ⟨⟨res, fl''⟩, hm⟩ : ∃ R, mapChunks f xs fl' = R := ⟨_, rfl⟩
      simp only [hm]
      cases res with
      | error e => cases e <;> rfl
      | ok ys => simp [isCR]

theorem concat_noCR (promote : DType → DType → DType) (ys : List (Arr α)) : isCR (concat promote ys) = false := by
  cases ys with
  | nil => rfl
  | cons a r =>
    simp only [concat]
    induction r generalizing a with
    | nil => rfl
    | cons b r ih =>
      rw [List.foldlM_cons]
      split
      · exact ih _
      · rfl

theorem overInputW_eq (promote : DType → DType → DType) (rec : Bool)
    (f : Arr α → List (Nd σ α β) → Except Err (Arr α) × List (Nd σ α β))
    (fW : Arr α → World σ α β → Except Err (Arr α) × World σ α β)
    (hf : ∀ x fl ds, (fW x ⟨fl, ds⟩) = ((f x fl).1, ⟨(f x fl).2, ds ++ cond (rec && isCR (f x fl).1) [(f x fl).2] []⟩))
    (x : Input α) (fl : List (Nd σ α β)) (ds : List (List (Nd σ α β))) :
    overInputW promote fW ⟨fl, ds⟩ x = ((overInput promote f fl x).1, ⟨(overInput promote f fl x).2,
      ds ++ cond (rec && isCR (overInput promote f fl x).1) [(overInput promote f fl x).2] []⟩) := by
  cases x with
  | arr x => exact hf x fl ds
  | chunks xs =>
    simp only [overInputW, overInput]
    rw [mapChunksW_eq rec f fW hf]
    obtain ⟨⟨res, fl'⟩, hm⟩ : ∃ R, mapChunks f xs fl = R := ⟨_, rfl⟩
    simp only [hm]
    cases res with
    | error e => cases e <;> rfl
    | ok ys =>
      simp only [isCR, Bool.and_false, cond_false, List.append_nil]
      by_cases he : xs.isEmpty = true
      · rw [if_pos he, if_pos he]; simp
      · rw [if_neg he, if_neg he]
        have := concat_noCR promote ys
        simp only [isCR] at this
        simp [this]

end Mdp.Flow
