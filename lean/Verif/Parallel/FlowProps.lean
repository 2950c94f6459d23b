import Verif.Parallel.Flow
import Mathlib.Data.List.Forall2

/-!
# Parallel training equals sequential training (C100, C101, C104)
-/

namespace PFlow

open Py

variable {σ X D : Type}

/-! ### Specification: training one node after the other in one process -/

/-- `x` sent through the nodes comes out as `y`. -/
inductive Through (ops : Ops σ X D) : List σ → X → X → Prop
  | nil (x) : Through ops [] x x
  | cons (n ns x y z) : ops.exec n x = .ok y → Through ops ns y z → Through ops (n :: ns) x z

/-- `n`, trained with the chunks one after the other, ends up as `n'`; chunk `d` arrives at the node as `inp d`. -/
inductive TrainOn (ops : Ops σ X D) (inp : D → X) : σ → List D → σ → Prop
  | nil (n) : TrainOn ops inp n [] n
  | cons (n n' n'' d ds) : ops.train n (inp d) d = (.ok (), n') → TrainOn ops inp n' ds n'' →
      TrainOn ops inp n (d :: ds) n''

/-- What happened in a training phase: the node, its chunks, whether it could be forked, whether this was its last
phase. -/
structure Phase (D : Type) where
  node : Nat
  chunks : List D
  forked : Bool
  closed : Bool

/-- Sequential training of the nodes `ns` ends with the nodes `ns'`: as long as a node is training, the first such
node is trained with all its chunks, which pass through the nodes before it, and the phase is stopped. -/
inductive Seq (ops : Ops σ X D) (data : List (Option (List D))) : List σ → List (Phase D) → List σ → Prop
  | done (ns) : (∀ n ∈ ns, ops.training n = false) → Seq ops data ns [] ns
  | phase (pre n n1 n2 post ds inp tr out) :
      (∀ m ∈ pre, ops.training m = false) → ops.training n = true →
      data[pre.length]? = some (some ds) → ds ≠ [] →
      (∀ d ∈ ds, Through ops pre (ops.dat d) (inp d)) →
      TrainOn ops inp n ds n1 → ops.stop n1 = (.ok (), n2) →
      Seq ops data (pre ++ n2 :: post) tr out →
      Seq ops data (pre ++ n :: post)
        (⟨pre.length, ds, (ops.fork n).isOk, !ops.training n2⟩ :: tr) out

/-- Node states that `R` relates cannot be told apart by a flow. A state that is related to itself is a proper one. -/
structure Respects (ops : Ops σ X D) (R : σ → σ → Prop) : Prop where
  symm : ∀ {a b}, R a b → R b a
  trans : ∀ {a b c}, R a b → R b c → R a c
  training : ∀ {a b}, R a b → ops.training a = ops.training b
  exec : ∀ {a b} x, R a b → ops.exec a x = ops.exec b x
  forks : ∀ {a b}, R a b → (ops.fork a).isOk = (ops.fork b).isOk
  train : ∀ {a b b' x d}, R a b → ops.train b x d = (.ok (), b') → ∃ a', ops.train a x d = (.ok (), a') ∧ R a' b'
  stop : ∀ {a b b'}, R a b → ops.stop b = (.ok (), b') → ∃ a', ops.stop a = (.ok (), a') ∧ R a' b'

/-- Fork and join of the nodes work: a node that cannot be forked says so, and training forks on the chunks and
joining them, in any order, gives the node that was trained with all chunks. (For the nodes of the library see C44.) -/
structure ForkJoin (ops : Ops σ X D) (R : σ → σ → Prop) : Prop where
  raises : ∀ {n e}, ops.fork n = .error e → e = .notForkable
  sound : ∀ {n f n' inp ds ds'}, R n n → ops.training n = true → ops.fork n = .ok f → ds ≠ [] → TrainOn ops inp n ds n' →
    ds'.Perm ds →
    ∃ g gs r n'', List.Forall₂ (fun d h => ops.train f (inp d) d = (.ok (), h)) ds' (g :: gs) ∧
      joinInto ops g gs = .ok r ∧ ops.join n r = (.ok (), n'') ∧ R n'' n'

/-- Training a node or joining a fork does not end its phase. -/
structure KeepsPhase (ops : Ops σ X D) : Prop where
  train : ∀ n x d, ops.training (ops.train n x d).2 = ops.training n
  join : ∀ n g, ops.training (ops.join n g).2 = ops.training n

/-- The tasks of a phase: all chunks in order, the callable comes with the first. -/
def Phase.tasks (p : Phase D) : List (Nat × D × Bool) :=
  match p.chunks with
  | [] => []
  | d :: ds => (p.node, d, true) :: ds.map fun c => (p.node, c, false)

/-- The tasks given to schedulers in a training with these phases. -/
def tasksOf (tr : List (Phase D)) : List (Nat × D × Bool) := (tr.filter (·.forked)).flatMap Phase.tasks

/-- The checkpoints called: those of the nodes whose last phase was done. -/
def callsOf (checks : List (Option (Check σ))) (tr : List (Phase D)) : List Nat :=
  (tr.filter fun p => p.closed && match checks[p.node]? with
    | some (some _) => true
    | _ => false).map (·.node)

/-- The scheduler that the tasks of node `i` go to. -/
def schedOf : SchedArg → Nat → Nat
  | .one, _ => 0
  | .many _, i => i

/-- The nodes trained on a scheduler, phase by phase, and the scheduler. -/
def usedOf (arg : SchedArg) (tr : List (Phase D)) : List (Nat × Nat) :=
  (tr.filter (·.forked)).map fun p => (p.node, schedOf arg p.node)

/-- The schedulers are there when they are needed: a scheduler, or an iterable with a scheduler at the place of
every node that is trained on it, of which there is at least one. -/
def Enough : SchedArg → List (Phase D) → Prop
  | .one, _ => True
  | .many l, tr => (∃ p ∈ tr, p.forked = true) ∧ ∀ p ∈ tr, p.forked = true → l[p.node]? = some true

/-- The last node trained on a scheduler. -/
def lastForked (tr : List (Phase D)) : Option Nat := (tr.filter (·.forked)).getLast?.map (·.node)

/-- The schedulers that have been shut down after the training: of a given iterable, all that there are for the
nodes up to the last one trained on a scheduler. -/
def shutOf : SchedArg → List (Phase D) → List Nat
  | .one, _ => []
  | .many l, tr => match lastForked tr with
    | none => []
    | some j => (List.range (j + 1)).filter fun k => l[k]? == some true

/-- Checkpoints that return and leave the node alone. -/
def Neutral (checks : List (Option (Check σ))) : Prop := ∀ c, some c ∈ checks → ∀ n, c n = (.ok (), n)

/-! ### Proofs -/

theorem through_iff (ops : Ops σ X D) (ns : List σ) (x y : X) :
    Through ops ns x y ↔ execAll ops ns x = .ok y := by
  induction ns generalizing x with
  | nil =>
    constructor
    · intro h; cases h; rfl
    · intro h; cases h; exact .nil _
  | cons n ns ih =>
    constructor
    · intro h
      cases h with
      | cons _ _ _ z _ h1 h2 => simp only [execAll, h1]; exact (ih z).1 h2
    · intro h
      simp only [execAll] at h
      cases hz : ops.exec n x with
      | error e => rw [hz] at h; cases h
      | ok z => rw [hz] at h; exact .cons _ _ _ z _ hz ((ih z).2 h)

theorem execAll_congr {ops : Ops σ X D} {R : σ → σ → Prop} (hR : Respects ops R) {as bs : List σ}
    (h : List.Forall₂ R as bs) (x : X) : execAll ops as x = execAll ops bs x := by
  induction h generalizing x with
  | nil => rfl
  | cons hab _ ih =>
    simp only [execAll, hR.exec x hab]
    split
    · exact ih _
    · rfl

theorem firstTraining_split {ops : Ops σ X D} {pre : List σ} {n : σ} {post : List σ}
    (hp : ∀ m ∈ pre, ops.training m = false) (hn : ops.training n = true) :
    firstTraining ops (pre ++ n :: post) = some pre.length := by
  induction pre with
  | nil => simp [firstTraining, List.findIdx?_cons, hn]
  | cons a pre ih =>
    have ha := hp a (by simp)
    have := ih fun m hm => hp m (by simp [hm])
    simp only [firstTraining] at this ⊢
    simp [List.findIdx?_cons, ha, this]

theorem split_of_forall₂ {R : σ → σ → Prop} {as : List σ} {pre : List σ} {n : σ} {post : List σ}
    (h : List.Forall₂ R as (pre ++ n :: post)) :
    ∃ pre' n' post', as = pre' ++ n' :: post' ∧ List.Forall₂ R pre' pre ∧ R n' n ∧ List.Forall₂ R post' post := by
  induction pre generalizing as with
  | nil =>
    cases h with
    | cons h1 h2 => exact ⟨[], _, _, rfl, .nil, h1, h2⟩
  | cons a pre ih =>
    cases h with
    | cons h1 h2 =>
      obtain ⟨p, m, q, rfl, hp, hm, hq⟩ := ih h2
      exact ⟨_ :: p, m, q, rfl, .cons h1 hp, hm, hq⟩

theorem forall₂_join {R : σ → σ → Prop} {p p' : List σ} {n n' : σ} {q q' : List σ}
    (hp : List.Forall₂ R p p') (hn : R n n') (hq : List.Forall₂ R q q') :
    List.Forall₂ R (p ++ n :: q) (p' ++ n' :: q') := by
  induction hp with
  | nil => exact .cons hn hq
  | cons h _ ih => exact .cons h ih

theorem forall₂_training {ops : Ops σ X D} {R : σ → σ → Prop} (hR : Respects ops R) {as bs : List σ}
    (h : List.Forall₂ R as bs) (hb : ∀ m ∈ bs, ops.training m = false) : ∀ m ∈ as, ops.training m = false := by
  induction h with
  | nil => simp
  | cons hab _ ih =>
    intro m hm
    cases hm with
    | head => rw [hR.training hab]; exact hb _ (by simp)
    | tail _ hm => exact ih (fun m hm => hb m (by simp [hm])) m hm

theorem set_split (pre : List σ) (n m : σ) (post : List σ) :
    (pre ++ n :: post).set pre.length m = pre ++ m :: post := by
  rw [List.set_append_right _ _ (Nat.le_refl _)]
  simp

@[simp] theorem get_split (pre : List σ) (n : σ) (post : List σ) : (pre ++ n :: post)[pre.length]? = some n := by
  simp

theorem onNode_split (s : St σ X D) {pre : List σ} {n : σ} {post : List σ} (h : s.nodes = pre ++ n :: post)
    (f : σ → Except PErr Unit × σ) :
    onNode pre.length f s = ((f n).1, { s with nodes := pre ++ (f n).2 :: post }) := by
  simp only [onNode, M.bind_def, M.get_def, h, get_split, setNode, M.modify_def, M.lift_def, set_split]

/-- Local training in a phase. -/
theorem localTrain_ok {ops : Ops σ X D} (hk : KeepsPhase ops) {inp : D → X} {ds : List D} :
    ∀ (s : St σ X D) {pre : List σ} {n n' : σ} {post : List σ}, s.nodes = pre ++ n :: post →
    (∀ m ∈ pre, ops.training m = false) → ops.training n = true →
    (∀ d ∈ ds, execAll ops pre (ops.dat d) = .ok (inp d)) → TrainOn ops inp n ds n' →
    localTrain ops ds s =
      (.ok (), { s with nodes := pre ++ n' :: post, started := s.started || decide (ds ≠ []) }) ∧
    ops.training n' = true := by
  induction ds with
  | nil =>
    intro s pre n n' post hs hp hn _ ht
    cases ht
    refine ⟨?_, hn⟩
    simp only [localTrain, M.pure_def, ← hs]
    simp
  | cons d ds ih =>
    intro s pre n n' post hs hp hn hx ht
    cases ht with
    | cons _ n1 _ _ _ h1 h2 =>
      have hf : fnTrain ops d s = (.ok (), { s with nodes := pre ++ n1 :: post, started := true }) := by
        simp only [fnTrain, M.bind_def, M.get_def, hs, firstTraining_split hp hn, M.modify_def,
          List.take_left', hx d (by simp)]
        rw [onNode_split _ (pre := pre) (n := n) (post := post) rfl]
        simp only [h1]
      have hn1 : ops.training n1 = true := by
        have := hk.train n (inp d) d
        rw [h1] at this
        rw [← hn]; exact this
      obtain ⟨h3, h4⟩ := ih { s with nodes := pre ++ n1 :: post, started := true } rfl hp hn1
        (fun d hd => hx d (by simp [hd])) h2
      refine ⟨?_, h4⟩
      simp only [localTrain, M.bind_ok hf, h3]
      simp

/-- Whether a checkpoint is called for node `i`. -/
def hasCheck (checks : List (Option (Check σ))) (i : Nat) : Bool := match checks[i]? with
  | some (some _) => true
  | _ => false

theorem closePhase_ok {ops : Ops σ X D} (s : St σ X D) {pre : List σ} {n1 n2 : σ} {post : List σ}
    (hs : s.nodes = pre ++ n1 :: post) (hp : ∀ m ∈ pre, ops.training m = false) (hn : ops.training n1 = true)
    (hst : s.started = true) (hstop : ops.stop n1 = (.ok (), n2)) (hck : Neutral s.checks) :
    closePhase ops pre.length s = (.ok (), { s with
      nodes := pre ++ n2 :: post, started := false
      calls := s.calls ++ (if !ops.training n2 && hasCheck s.checks pre.length then [pre.length] else [])
      i := if ops.training n2 then s.i else some (pre.length + 1) }) := by
  have h1 : fnStop ops s = (.ok (), { s with nodes := pre ++ n2 :: post, started := false }) := by
    simp only [fnStop, M.bind_def, M.get_def, hs, firstTraining_split hp hn, hst, if_true]
    rw [onNode_split s hs]
    simp only [hstop, M.modify_def]
  have h2 : postStop ops pre.length { s with nodes := pre ++ n2 :: post, started := false } =
      (.ok (), { s with
        nodes := pre ++ n2 :: post, started := false
        calls := s.calls ++ (if !ops.training n2 && hasCheck s.checks pre.length then [pre.length] else []) }) := by
    simp only [postStop, M.bind_def, M.get_def, get_split]
    cases ht : ops.training n2 with
    | true => simp
    | false =>
      obtain ⟨o, hc⟩ : ∃ o, s.checks[pre.length]? = o := ⟨_, rfl⟩
      simp only [hasCheck, hc, Bool.false_eq_true, if_false]
      cases o with
      | none => simp
      | some c => cases c with
        | none => simp
        | some c =>
          have := hck c (List.mem_of_getElem? hc) n2
          simp only [M.modify_def, M.bind_def]
          rw [onNode_split _ (pre := pre) (n := n2) (post := post) rfl]
          simp [this]
  simp only [closePhase, M.bind_ok h1, M.bind_ok h2, M.bind_def, M.get_def, get_split]
  cases ht : ops.training n2 <;> simp

/-- The parallel flow `t` and the sequentially trained nodes `m` agree, and `t` is between two phases. -/
structure Rel (ops : Ops σ X D) (R : σ → σ → Prop) (data : List (Option (List D)))
    (checks : List (Option (Check σ))) (t : St σ X D) (m : List σ) : Prop where
  nodes : List.Forall₂ R t.nodes m
  data : t.data = some data
  checks : t.checks = checks
  started : t.started = false

theorem callsOf_cons (checks : List (Option (Check σ))) (p : Phase D) (tr : List (Phase D)) :
    callsOf checks (p :: tr) = (if p.closed && hasCheck checks p.node then [p.node] else []) ++ callsOf checks tr := by
  simp only [callsOf, List.filter_cons]
  change (List.map _ (if (p.closed && hasCheck checks p.node) = true then _ else _)) = _
  split <;> simp

theorem callsOf_append (checks : List (Option (Check σ))) (tr tr' : List (Phase D)) :
    callsOf checks (tr ++ tr') = callsOf checks tr ++ callsOf checks tr' := by
  simp [callsOf]

/-- How `_next_train_phase` ends in a successful training: no phases are left, or the first task of the next
forkable phase is there. -/
inductive Stops (t' : St σ X D) (k : Nat) (nx : Option (D × Bool)) : List (Phase D) → Prop
  | done : t'.i = none → t'.next = nx → Stops t' k nx []
  | phase (p c cs tr) : p.forked = true → p.chunks = c :: cs → t'.i = some p.node → k ≤ p.node →
      t'.iter = some cs → t'.next = some (c, true) → Stops t' k nx (p :: tr)

theorem skip {ops : Ops σ X D} {r : Except PErr Unit × St σ X D} :
    ∀ (g : Nat) (t : St σ X D) (k : Nat), t.i = some k → k + g ≤ t.nodes.length →
    (∀ j n, k ≤ j → j < k + g → t.nodes[j]? = some n → ops.training n = false) →
    Returns (nextStep ops) { t with i := some (k + g) } r → Returns (nextStep ops) t r
  | 0, t, k, hi, _, _, h => by
    have : { t with i := some (k + 0) } = t := by rw [Nat.add_zero, ← hi]
    rwa [this] at h
  | g + 1, t, k, hi, hl, hn, h => by
    obtain ⟨n, hk⟩ : ∃ n, t.nodes[k]? = some n := ⟨t.nodes[k], List.getElem?_eq_getElem (by omega)⟩
    refine .of_inl (s' := { t with i := some (k + 1) }) ?_ (skip g { t with i := some (k + 1) } (k + 1) rfl (by
      simp only; omega) (fun j n h1 h2 h3 => hn j n (by omega) (by omega) h3) ?_)
    · simp only [nextStep, hi, hk, hn k n (Nat.le_refl _) (by omega) hk]
      rfl
    · have : k + 1 + g = k + (g + 1) := by omega
      rw [this]
      exact h

theorem next_reach {ops : Ops σ X D} {R : σ → σ → Prop} (hR : Respects ops R) (hF : ForkJoin ops R)
    (hk : KeepsPhase ops) {data : List (Option (List D))} {checks : List (Option (Check σ))} (hck : Neutral checks)
    {m : List σ} {tr : List (Phase D)} {out : List σ} (hseq : Seq ops data m tr out) :
    ∀ (t : St σ X D) (k : Nat), Rel ops R data checks t m → t.i = some k → k ≤ m.length →
    (∀ j n, j < k → m[j]? = some n → ops.training n = false) →
    ∃ tr1 tr2 m' t', tr = tr1 ++ tr2 ∧ (∀ p ∈ tr1, p.forked = false) ∧ Seq ops data m' tr2 out ∧
      Returns (nextStep ops) t (.ok (), t') ∧ Rel ops R data checks t' m' ∧
      t'.calls = t.calls ++ callsOf checks tr1 ∧ Stops t' k t.next tr2 := by
  induction hseq with
  | done ns hns =>
    intro t k ht hi hle _
    have hlen := ht.nodes.length_eq
    refine ⟨[], [], ns, { t with i := none }, rfl, by simp, .done ns hns, ?_, ⟨ht.nodes, ht.data, ht.checks,
      ht.started⟩, by simp [callsOf], .done rfl rfl⟩
    refine skip (ns.length - k) t k hi (by omega) ?_ ?_
    · intro j n _ _ hj
      exact forall₂_training hR ht.nodes hns n (List.mem_of_getElem? hj)
    · refine .of_inr ?_
      have : t.nodes[k + (ns.length - k)]? = none := by
        rw [List.getElem?_eq_none_iff]; omega
      simp only [nextStep, this]
  | phase pre n n1 n2 post ds inp tr out hpre hn hd hds hx htr hstop hrest ih =>
    intro t k ht hi hle hbefore
    have hkp : k ≤ pre.length := by
      by_contra hc
      have := hbefore pre.length n (by omega) (get_split _ _ _)
      rw [hn] at this
      cases this
    obtain ⟨pre', n', post', hnodes, hp', hn', hq'⟩ := split_of_forall₂ ht.nodes
    have hlen : pre'.length = pre.length := hp'.length_eq
    have hpre' := forall₂_training hR hp' hpre
    have htn' : ops.training n' = true := by rw [hR.training hn', hn]
    have hskip : ∀ r, Returns (nextStep ops) { t with i := some pre.length } r → Returns (nextStep ops) t r := by
      intro r hr
      refine skip (pre.length - k) t k hi (by rw [hnodes, List.length_append]; omega) ?_ ?_
      · intro j a _ h2 hj
        rw [hnodes, List.getElem?_append_left (by omega)] at hj
        exact hpre' a (List.mem_of_getElem? hj)
      · have : k + (pre.length - k) = pre.length := by omega
        rw [this]
        exact hr
    have hget : t.nodes[pre.length]? = some n' := by rw [hnodes, ← hlen]; exact get_split _ _ _
    have hfork : fnFork ops t.nodes = ops.fork n' := by
      simp only [fnFork, hnodes, firstTraining_split hpre' htn', get_split]
    have hx' : ∀ d ∈ ds, execAll ops pre' (ops.dat d) = .ok (inp d) := by
      intro d hdm
      rw [execAll_congr hR hp']
      exact (through_iff ops _ _ _).1 (hx d hdm)
    obtain ⟨c, cs, rfl⟩ : ∃ c cs, ds = c :: cs := by
      cases ds with
      | nil => exact absurd rfl hds
      | cons c cs => exact ⟨c, cs, rfl⟩
    cases hfk : ops.fork n' with
    | ok f =>
      have hfo : (ops.fork n).isOk = true := by rw [← hR.forks hn', hfk]; rfl
      refine ⟨[], _, _, { t with i := some pre.length, iter := some cs, next := some (c, true) }, rfl, by simp,
        .phase pre n n1 n2 post _ inp tr out hpre hn hd hds hx htr hstop hrest, hskip _ (.of_inr ?_),
        ⟨ht.nodes, ht.data, ht.checks, ht.started⟩, by simp [callsOf], .phase _ c cs tr hfo rfl rfl hkp rfl rfl⟩
      simp only [nextStep, hget, htn', if_true, ht.data, hd, hfork, hfk]
    | error e =>
      have hfo : (ops.fork n).isOk = false := by rw [← hR.forks hn', hfk]; rfl
      have he := hF.raises hfk
      subst he
      -- the sequential training of the node, with the parallel node
      have htrain : ∀ {a b b' : σ} {l : List D}, R a b → TrainOn ops inp b l b' →
          ∃ a', TrainOn ops inp a l a' ∧ R a' b' := by
        intro a b b' l hab h
        induction h generalizing a with
        | nil b => exact ⟨a, .nil a, hab⟩
        | cons b b1 b2 d l h1 _ ih =>
          obtain ⟨a1, h3, h4⟩ := hR.train hab h1
          obtain ⟨a2, h5, h6⟩ := ih h4
          exact ⟨a2, .cons _ _ _ _ _ h3 h5, h6⟩
      obtain ⟨n1', htr', hn1'⟩ := htrain hn' htr
      obtain ⟨n2', hstop', hn2'⟩ := hR.stop hn1' hstop
      have hl := localTrain_ok hk { t with i := some pre.length } hnodes hpre' htn' hx' htr'
      obtain ⟨hl, hn1t⟩ := hl
      have hc := closePhase_ok (ops := ops) (n2 := n2')
        { t with i := some pre.length, nodes := pre' ++ n1' :: post',
                 started := t.started || decide (c :: cs ≠ []) }
        rfl hpre' hn1t (by simp) hstop' (by rw [ht.checks]; exact hck)
      rw [hlen] at hc
      have hstep : nextStep ops { t with i := some pre.length } = .inl { t with
          nodes := pre' ++ n2' :: post', started := false
          calls := t.calls ++ (if !ops.training n2' && hasCheck t.checks pre.length then [pre.length] else [])
          i := if ops.training n2' then some pre.length else some (pre.length + 1) } := by
        simp only [nextStep, hget, htn', if_true, ht.data, hd, hfork, hfk]
        have : localPhase ops pre.length (c :: cs) { t with i := some pre.length } = closePhase ops pre.length
            { t with i := some pre.length, nodes := pre' ++ n1' :: post',
                     started := t.started || decide (c :: cs ≠ []) } := by
          rw [localPhase, M.bind_ok hl, if_neg (by simp)]
        rw [hc] at this
        simp only [ht.data] at this ⊢
        rw [this]
      have htn2 : ops.training n2' = ops.training n2 := hR.training hn2'
      have hrel : Rel ops R data checks { t with
          nodes := pre' ++ n2' :: post', started := false
          calls := t.calls ++ (if !ops.training n2' && hasCheck t.checks pre.length then [pre.length] else [])
          i := if ops.training n2' then some pre.length else some (pre.length + 1) } (pre ++ n2 :: post) :=
        ⟨forall₂_join hp' hn2' hq', ht.data, ht.checks, rfl⟩
      obtain ⟨tr1, tr2, m', t', h1, h2, h3, h4, h5, h6, h7⟩ := ih _
        (if ops.training n2 then pre.length else pre.length + 1) hrel (by rw [htn2]; split <;> rfl)
        (by simp; split <;> omega) (by
          intro j a hj ha
          by_cases hjp : j < pre.length
          · rw [List.getElem?_append_left hjp] at ha
            exact hpre a (List.mem_of_getElem? ha)
          · cases hb : ops.training n2 with
            | true => rw [hb, if_pos rfl] at hj; omega
            | false =>
              rw [hb, if_neg (by simp)] at hj
              have : j = pre.length := by omega
              subst this
              rw [get_split] at ha
              cases ha
              exact hb)
      refine ⟨⟨pre.length, c :: cs, (ops.fork n).isOk, !ops.training n2⟩ :: tr1, tr2, m', t', by rw [h1]; rfl, ?_,
        h3, hskip _ (.of_inl hstep h4), h5, ?_, ?_⟩
      · intro p hp
        cases hp with
        | head => exact hfo
        | tail _ hp => exact h2 p hp
      · rw [h6, callsOf_cons]
        simp only [ht.checks, htn2, List.append_assoc]
      · cases h7 with
        | done h8 h9 => exact .done h8 h9
        | phase p c cs tr h8 h9 h10 h11 h12 h13 =>
          refine .phase p c cs tr h8 h9 h10 ?_ h12 h13
          split at h11 <;> omega

theorem getTasks_ok : ∀ (cs : List D) (t : St σ X D) (i : Nat) (c : D) (b : Bool), t.i = some i → t.iter = some cs →
    t.next = some (c, b) →
    getTasks (1 + cs.length) t = (.ok ((c, b) :: cs.map (·, false)), { t with iter := some [], next := none })
  | [], t, i, c, b, hi, hit, hn => by
    simp only [List.length_nil, getTasks, getTask, M.bind_def, M.get_def, hn, Option.isSome_some, if_true, hi, hit,
      M.modify_def, M.pure_def, List.map_nil]
  | d :: cs, t, i, c, b, hi, hit, hn => by
    have ih := getTasks_ok cs { t with iter := some cs, next := some (d, false) } i d false hi rfl rfl
    have hg : getTask t = (.ok (c, b), { t with iter := some cs, next := some (d, false) }) := by
      simp only [getTask, M.bind_def, M.get_def, hn, hi, Option.isSome_some, if_true, hit, M.modify_def, M.pure_def]
    rw [Nat.add_comm] at ih ⊢
    rw [List.length_cons, getTasks]
    simp only [M.bind_def, M.get_def, hn, Option.isSome_some, if_true, hg]
    rw [ih]
    simp

theorem runTasks_ok {ops : Ops σ X D} {pre : List σ} {n f : σ} {post : List σ} {inp : D → X}
    (hp : ∀ m ∈ pre, ops.training m = false) (hn : ops.training n = true) (hf : ops.fork n = .ok f)
    {ds : List D} {gs : List σ} (h : List.Forall₂ (fun d g => ops.train f (inp d) d = (.ok (), g)) ds gs)
    (hx : ∀ d ∈ ds, execAll ops pre (ops.dat d) = .ok (inp d)) :
    runTasks ops (pre ++ n :: post) ds = .ok gs := by
  induction h with
  | nil => rfl
  | @cons d g ds gs h1 _ ih =>
    have h2 : runTask ops (pre ++ n :: post) d = .ok g := by
      simp only [runTask, fnFork, firstTraining_split hp hn, get_split, hf, List.take_left', hx d (by simp), h1]
    simp only [runTasks, h2, ih fun d hd => hx d (by simp [hd])]

theorem trainOn_congr {ops : Ops σ X D} {R : σ → σ → Prop} (hR : Respects ops R) {inp : D → X} {a b b' : σ}
    {l : List D} (hab : R a b) (h : TrainOn ops inp b l b') : ∃ a', TrainOn ops inp a l a' ∧ R a' b' := by
  induction h generalizing a with
  | nil b => exact ⟨a, .nil a, hab⟩
  | cons b b1 b2 d l h1 _ ih =>
    obtain ⟨a1, h3, h4⟩ := hR.train hab h1
    obtain ⟨a2, h5, h6⟩ := ih h4
    exact ⟨a2, .cons _ _ _ _ _ h3 h5, h6⟩

/-- A phase on the scheduler. -/
theorem runPhase_ok {ops : Ops σ X D} {R : σ → σ → Prop} (hR : Respects ops R) (hF : ForkJoin ops R)
    (hk : KeepsPhase ops) {data : List (Option (List D))} {checks : List (Option (Check σ))} (hck : Neutral checks)
    {arr : Nat → List D → List D} (harr : ∀ k l, (arr k l).Perm l)
    {m : List σ} {p : Phase D} {tr : List (Phase D)} {out : List σ} (hseq : Seq ops data m (p :: tr) out)
    (s : TSt σ X D) (q : Nat) {k0 : Nat} {nx : Option (D × Bool)} (hrel : Rel ops R data checks s.pf m)
    (hst : Stops s.pf k0 nx (p :: tr)) (hcur : s.cur = .sched q) :
    ∃ m' pf' k, runPhase ops arr s = (.ok (), { s with
        pf := pf', phase := s.phase + 1, used := s.used ++ [(p.node, q)], given := s.given ++ p.tasks }) ∧
      Seq ops data m' tr out ∧ Rel ops R data checks pf' m' ∧ pf'.i = some k ∧ k ≤ m'.length ∧ p.node ≤ k ∧
      (∀ j n, j < k → m'[j]? = some n → ops.training n = false) ∧ pf'.next = none ∧
      pf'.calls = s.pf.calls ++ callsOf checks [p] := by
  cases hseq with
  | phase pre n n1 n2 post ds inp tr out hpre hn hd hds hx htr hstop hrest =>
  cases hst with
  | phase _ c cs _ hfo hch hi hk0 hit hnext =>
  simp only at hfo hch hi
  subst hch
  obtain ⟨pre', n', post', hnodes, hp', hn', hq'⟩ := split_of_forall₂ hrel.nodes
  have hlen : pre'.length = pre.length := hp'.length_eq
  have hpre' := forall₂_training hR hp' hpre
  have htn' : ops.training n' = true := by rw [hR.training hn', hn]
  obtain ⟨f, hf⟩ : ∃ f, ops.fork n' = .ok f := by
    rw [← hR.forks hn'] at hfo
    cases h : ops.fork n' with
    | ok f => exact ⟨f, rfl⟩
    | error e => rw [h] at hfo; cases hfo
  have hx' : ∀ d ∈ c :: cs, execAll ops pre' (ops.dat d) = .ok (inp d) := by
    intro d hdm
    rw [execAll_congr hR hp']
    exact (through_iff ops _ _ _).1 (hx d hdm)
  obtain ⟨a, htra, ha⟩ := trainOn_congr hR hn' htr
  have hperm := harr s.phase (c :: cs)
  obtain ⟨g, gs, r, n'', hall, hjoin, hjn, hRn⟩ := hF.sound (hR.trans hn' (hR.symm hn')) htn' hf (by simp) htra hperm
  have hrun := runTasks_ok (post := post') hpre' htn' hf hall fun d hd => hx' d (hperm.subset hd)
  obtain ⟨n2', hstop', hn2'⟩ := hR.stop (hR.trans hRn ha) hstop
  have hget := getTasks_ok cs s.pf pre.length c true hi hit hnext
  have htn'' : ops.training n'' = true := by
    have := hk.join n' r
    rw [hjn] at this
    rw [← htn']; exact this
  have hcl := closePhase_ok (ops := ops) (n2 := n2')
    { s.pf with iter := some [], next := none, started := true, nodes := pre' ++ n'' :: post' }
    rfl hpre' htn'' rfl hstop' (by simp only [hrel.checks]; exact hck)
  rw [hlen] at hcl
  have hjoinAll : joinAll ops [r] { s.pf with iter := some [], next := none } = (.ok (),
      { s.pf with iter := some [], next := none, started := true, nodes := pre' ++ n'' :: post' }) := by
    simp only [joinAll, fnJoin, M.bind_def, M.get_def, hnodes, firstTraining_split hpre' htn', M.modify_def]
    rw [onNode_split _ (pre := pre') (n := n') (post := post') rfl]
    simp only [hjn, M.pure_def]
  have huse : useResults ops [r] { s.pf with iter := some [], next := none } = (.ok (), { s.pf with
      iter := some [], next := none, nodes := pre' ++ n2' :: post', started := false
      calls := s.pf.calls ++ (if !ops.training n2' && hasCheck s.pf.checks pre.length then [pre.length] else [])
      i := if ops.training n2' then s.pf.i else some (pre.length + 1) }) := by
    rw [useResults, M.bind_ok hjoinAll]
    refine Eq.trans ?_ hcl
    simp only [M.bind_def, M.get_def, hi]
  refine ⟨pre ++ n2 :: post, { s.pf with
      iter := some [], next := none, nodes := pre' ++ n2' :: post', started := false
      calls := s.pf.calls ++ (if !ops.training n2' && hasCheck s.pf.checks pre.length then [pre.length] else [])
      i := if ops.training n2' then s.pf.i else some (pre.length + 1) }, if ops.training n2 then pre.length else pre.length + 1, ?_, hrest, ?_, ?_, ?_, ?_, ?_,
    ?_, ?_⟩
  case refine_1 =>
    simp only [runPhase, M.bind_def, M.get_def, onFlow, hit, Option.map_some, Option.getD_some, hget, hcur, hi,
      M.modify_def, List.map_cons, List.map_map]
    have hmap : List.map ((fun x : D × Bool => x.1) ∘ fun x => (x, false)) cs = cs := by
      simp [Function.comp_def]
    rw [hmap]
    simp only [hnodes, hrun, hjoin]
    simp only [hnodes, hi] at huse
    unfold onFlow
    simp only [huse]
    simp only [Phase.tasks, List.map_map, Function.comp_def]
  · exact ⟨forall₂_join hp' hn2' hq', hrel.data, hrel.checks, rfl⟩
  · simp only [hR.training hn2', hi]
    split <;> rfl
  · simp; split <;> omega
  · split <;> simp
  · intro j b hj hb
    by_cases hjp : j < pre.length
    · rw [List.getElem?_append_left hjp] at hb
      exact hpre b (List.mem_of_getElem? hb)
    · cases ht2 : ops.training n2 with
      | true => rw [ht2, if_pos rfl] at hj; omega
      | false =>
        rw [ht2, if_neg (by simp)] at hj
        have : j = pre.length := by omega
        subst this
        rw [get_split] at hb
        cases hb
        exact ht2
  · rfl
  · simp only [callsOf_cons, hrel.checks, hR.training hn2']
    simp [callsOf]

/-- The schedulers of the iterable before number `d`. -/
def before (l : List Bool) (d : Nat) : List Nat := (List.range d).filter fun k => l[k]? == some true

theorem dispose_ok (l : List Bool) : ∀ (n : Nat) (s : TSt σ X D) (d : Nat) (b : Bool), l[d]? = some b →
    s.cur = (if b then .sched d else .none) → s.drawn = d + 1 → s.shut = before l d → l[d + n]? = some true →
    dispose l n s = (.ok (), { s with
      cur := .sched (d + n), drawn := d + n + 1, shut := before l (d + n) })
  | 0, s, d, b, hb, hc, hd, hs, ht => by
    rw [Nat.add_zero, hb] at ht
    cases ht
    simp only [if_true] at hc
    simp only [dispose, M.pure_def, Nat.add_zero, ← hc, ← hd, ← hs]
  | n + 1, s, d, b, hb, hc, hd, hs, ht => by
    have hlt : d + (n + 1) < l.length := by
      by_contra h
      rw [List.getElem?_eq_none (by omega)] at ht
      cases ht
    obtain ⟨b', hb'⟩ : ∃ b', l[d + 1]? = some b' := ⟨l[d + 1], List.getElem?_eq_getElem (by omega)⟩
    have h1 : shutCur s = (.ok (), { s with shut := before l (d + 1) }) := by
      have hbf : before l (d + 1) = before l d ++ (if b then [d] else []) := by
        simp only [before, List.range_succ, List.filter_append, List.filter_cons, List.filter_nil, hb]
        cases b <;> simp
      cases b with
      | true =>
        simp only [if_true] at hc
        simp only [shutCur, M.bind_def, M.get_def, hc, M.modify_def, hbf, hs, if_true]
      | false =>
        simp only [Bool.false_eq_true, if_false] at hc
        simp only [shutCur, M.bind_def, M.get_def, hc, M.pure_def, hbf, ← hs, Bool.false_eq_true, if_false,
          List.append_nil]
        rw [← hc]
    have h2 : draw l { s with shut := before l (d + 1) } = (.ok (), { s with
        shut := before l (d + 1), cur := if b' then .sched (d + 1) else .none, drawn := d + 2 }) := by
      simp only [draw, M.bind_def, M.get_def, hd, hb', M.modify_def]
    have h3 := dispose_ok l n { s with
        shut := before l (d + 1), cur := if b' then .sched (d + 1) else .none, drawn := d + 2 } (d + 1) b' hb' rfl rfl
        rfl (by rw [← ht]; congr 1; omega)
    simp only [dispose, M.bind_ok h1, M.bind_ok h2]
    rw [h3]
    have : d + 1 + n = d + (n + 1) := by omega
    simp only [this]

/-- `scheduler` is the one for node `a`, and the earlier ones are shut down. -/
def SchedOk (arg : SchedArg) (a : Nat) (s : TSt σ X D) : Prop :=
  match arg with
  | .one => s.cur = .sched 0 ∧ s.many = false ∧ s.shut = []
  | .many l => s.cur = .sched a ∧ s.many = true ∧ s.shut = before l a ∧ s.drawn = a + 1 ∧ s.last = some a ∧
      l[a]? = some true

/-- What `train` keeps while it deals with its schedulers. -/
structure Same (s s' : TSt σ X D) : Prop where
  pf : s'.pf = s.pf
  phase : s'.phase = s.phase
  used : s'.used = s.used
  given : s'.given = s.given

theorem prepare_ok (arg : SchedArg) (s : TSt σ X D) (i : Nat) (hi : s.pf.i = some i)
    (hl : ∀ l, arg = .many l → l[i]? = some true) (hd : s.drawn = 0) (hs : s.shut = []) (hm : s.many = false) :
    ∃ s', prepare arg s = (.ok (), s') ∧ SchedOk arg i s' ∧ Same s s' := by
  cases arg with
  | one => exact ⟨_, rfl, ⟨rfl, hm, hs⟩, ⟨rfl, rfl, rfl, rfl⟩⟩
  | many l =>
    have ht := hl l rfl
    have hlt : i < l.length := by
      by_contra h
      rw [List.getElem?_eq_none (by omega)] at ht
      cases ht
    obtain ⟨b, hb⟩ : ∃ b, l[0]? = some b := ⟨l[0], List.getElem?_eq_getElem (by omega)⟩
    have h2 : draw l { s with many := true } = (.ok (), { s with
        many := true, cur := if b then .sched 0 else .none, drawn := 1 }) := by
      simp only [draw, M.bind_def, M.get_def, hd, hb, M.modify_def]
    have h3 := dispose_ok l i { s with many := true, cur := if b then .sched 0 else .none, drawn := 1 } 0 b hb rfl rfl
      (by simp [before, hs]) (by rw [Nat.zero_add]; exact ht)
    rw [Nat.zero_add] at h3
    refine ⟨{ s with many := true, cur := .sched i, drawn := i + 1, shut := before l i, last := some i }, ?_,
      ⟨rfl, rfl, rfl, rfl, rfl, ht⟩, ⟨rfl, rfl, rfl, rfl⟩⟩
    simp only [prepare, M.bind_def, M.modify_def, h2, M.get_def, hi, h3]

theorem switch_ok (arg : SchedArg) (s : TSt σ X D) (a i : Nat) (hi : s.pf.i = some i) (hai : a ≤ i)
    (hl : ∀ l, arg = .many l → l[i]? = some true) (hs : SchedOk arg a s) :
    ∃ s', switch arg s = (.ok (), s') ∧ SchedOk arg i s' ∧ Same s s' := by
  cases arg with
  | one => exact ⟨s, rfl, hs, ⟨rfl, rfl, rfl, rfl⟩⟩
  | many l =>
    obtain ⟨h1, h2, h3, h4, h5, h6⟩ := hs
    have ht := hl l rfl
    by_cases hlt : a < i
    · have h7 := dispose_ok l (i - a) s a true h6 h1 h4 h3 (by rw [← ht]; congr 1; omega)
      have : a + (i - a) = i := by omega
      rw [this] at h7
      refine ⟨{ s with cur := .sched i, drawn := i + 1, shut := before l i, last := some i }, ?_,
        ⟨rfl, h2, rfl, rfl, rfl, ht⟩, ⟨rfl, rfl, rfl, rfl⟩⟩
      simp only [switch, M.bind_def, M.get_def, hi, h5, hlt, if_true, h7, M.modify_def]
    · have : a = i := by omega
      subst this
      refine ⟨s, ?_, ⟨h1, h2, h3, h4, h5, h6⟩, ⟨rfl, rfl, rfl, rfl⟩⟩
      simp only [switch, M.bind_def, M.get_def, hi, h5, hlt, if_false, M.pure_def]

theorem switch_none (arg : SchedArg) (s : TSt σ X D) (hi : s.pf.i = none) : switch arg s = (.ok (), s) := by
  cases arg <;> simp [switch, M.bind_def, hi]

/-- Running `_next_train_phase` inside `train`. -/
theorem lift_next {ops : Ops σ X D} {arg : SchedArg} {arr : Nat → List D → List D} {t' : St σ X D}
    {r : Except PErr Unit × TSt σ X D} {s : TSt σ X D} (h : Returns (nextStep ops) s.pf (.ok (), t'))
    {s' : TSt σ X D} (hpc : s.pc = .first ∧ prepare arg { s with pf := t' } = (.ok (), s') ∨
      s.pc = .again ∧ switch arg { s with pf := t' } = (.ok (), s'))
    (hr : Returns (trainStep ops arg arr) { s' with pc := .head } r) : Returns (trainStep ops arg arr) s r := by
  obtain ⟨n, hn⟩ := h
  induction n generalizing s with
  | zero => simp [runFuel] at hn
  | succ n ih =>
    simp only [runFuel] at hn
    cases hst : nextStep ops s.pf with
    | inl t =>
      rw [hst] at hn
      refine .of_inl (s' := { s with pf := t }) ?_ (ih hpc hn)
      rcases hpc with ⟨h1, _⟩ | ⟨h1, _⟩ <;> simp only [trainStep, h1, hst]
    | inr q =>
      rw [hst] at hn
      cases hn
      refine .of_inl (s' := { s' with pc := .head }) ?_ hr
      rcases hpc with ⟨h1, h2⟩ | ⟨h1, h2⟩
      all_goals
        rw [h1] at h2
        simp only [trainStep, h1, hst, h2]

/-- The bookkeeping of a training with the phases `tr`, from `s` to the end `r`. -/
structure Log (arg : SchedArg) (checks : List (Option (Check σ))) (tr : List (Phase D)) (s r : TSt σ X D) : Prop where
  used : r.used = s.used ++ usedOf arg tr
  given : r.given = s.given ++ tasksOf tr
  calls : r.pf.calls = s.pf.calls ++ callsOf checks tr

theorem usedOf_append (arg : SchedArg) (tr tr' : List (Phase D)) :
    usedOf arg (tr ++ tr') = usedOf arg tr ++ usedOf arg tr' := by simp [usedOf]

theorem tasksOf_append (tr tr' : List (Phase D)) : tasksOf (tr ++ tr') = tasksOf tr ++ tasksOf tr' := by
  simp [tasksOf]

theorem filter_local {tr : List (Phase D)} (h : ∀ p ∈ tr, p.forked = false) : tr.filter (·.forked) = [] := by
  rw [List.filter_eq_nil_iff]
  intro p hp
  simp [h p hp]

/-- From the head of the loop of `train` to the end. -/
theorem train_from_head {ops : Ops σ X D} {R : σ → σ → Prop} (hR : Respects ops R) (hF : ForkJoin ops R)
    (hk : KeepsPhase ops) {data : List (Option (List D))} {checks : List (Option (Check σ))} (hck : Neutral checks)
    {arr : Nat → List D → List D} (harr : ∀ k l, (arr k l).Perm l) (arg : SchedArg) :
    ∀ (N : Nat) (m : List σ) (tr : List (Phase D)) (out : List σ) (s : TSt σ X D) (k0 a : Nat), tr.length ≤ N →
    Seq ops data m tr out → Rel ops R data checks s.pf m → Stops s.pf k0 none tr → s.pc = .head →
    (∀ l, arg = .many l → ∀ p ∈ tr, p.forked = true → l[p.node]? = some true) →
    (∀ p tr', tr = p :: tr' → a = p.node) → SchedOk arg a s →
    ∃ r, Returns (trainStep ops arg arr) s (.ok (), r) ∧ List.Forall₂ R r.pf.nodes out ∧ r.pf.i = none ∧
      r.pf.next = none ∧ Log arg checks tr s r ∧ SchedOk arg ((lastForked tr).getD a) r := by
  intro N
  induction N with
  | zero =>
    intro m tr out s k0 a hN hseq hrel hst hpc hl ha hso
    have : tr = [] := List.eq_nil_of_length_eq_zero (by omega)
    subst this
    cases hst with
    | done h1 h2 =>
      cases hseq with
      | done _ h3 =>
        refine ⟨s, .of_inr (by simp [trainStep, hpc, h1]), hrel.nodes, h1, h2, ⟨by simp [usedOf], by simp [tasksOf],
          by simp [callsOf]⟩, hso⟩
  | succ N ih =>
    intro m tr out s k0 a hN hseq hrel hst hpc hl ha hso
    cases htr : tr with
    | nil =>
      subst htr
      cases hst with
      | done h1 h2 =>
        cases hseq with
        | done _ h3 =>
          refine ⟨s, .of_inr (by simp [trainStep, hpc, h1]), hrel.nodes, h1, h2, ⟨by simp [usedOf], by simp [tasksOf],
            by simp [callsOf]⟩, hso⟩
    | cons p tr' =>
      subst htr
      have hap := ha p tr' rfl
      subst hap
      have hpf : p.forked = true := by cases hst with | phase _ _ _ _ h => exact h
      have hisome : s.pf.i.isSome = true := by cases hst with | phase _ _ _ _ _ _ h => rw [h]; rfl
      have hcur : s.cur = .sched (schedOf arg p.node) := by
        cases arg with
        | one => exact hso.1
        | many l => exact hso.1
      obtain ⟨m', pf', k, hrun, hseq', hrel', hi', hkm, hpk, hbef, hnext', hcalls⟩ :=
        runPhase_ok hR hF hk hck harr hseq s _ hrel hst hcur
      -- the state after the phase
      generalize hs1 : ({ s with
        pf := pf', phase := s.phase + 1, used := s.used ++ [(p.node, schedOf arg p.node)],
        given := s.given ++ p.tasks, pc := .again } : TSt σ X D) = s1
      have hstep : trainStep ops arg arr s = .inl s1 := by
        simp only [trainStep, hpc, hisome, if_true, hrun, ← hs1]
      have hso1 : SchedOk arg p.node s1 := by
        rw [← hs1]
        cases arg <;> exact hso
      have hpf1 : s1.pf = pf' := by rw [← hs1]
      have hpc1 : s1.pc = .again := by rw [← hs1]
      obtain ⟨tr1, tr2, m2, t2, htr, hloc, hseq2, hret, hrel2, hcalls2, hstops⟩ :=
        next_reach hR hF hk hck hseq' s1.pf k (by rw [hpf1]; exact hrel') (by rw [hpf1]; exact hi') hkm hbef
      rw [hpf1, hnext'] at hstops
      have hlen : tr2.length ≤ N := by
        rw [htr] at hN
        simp at hN
        omega
      have hl2 : ∀ l, arg = .many l → ∀ q ∈ tr2, q.forked = true → l[q.node]? = some true := by
        intro l harg q hq
        exact hl l harg q (by rw [htr]; simp [hq])
      -- on to the next scheduler
      have hswitch : ∃ s2 a2, switch arg { s1 with pf := t2 } = (.ok (), s2) ∧ SchedOk arg a2 s2 ∧
          Same { s1 with pf := t2 } s2 ∧ (∀ q tr', tr2 = q :: tr' → a2 = q.node) ∧ (tr2 = [] → a2 = p.node) := by
        cases hstops with
        | done h1 h2 =>
          refine ⟨_, p.node, switch_none arg _ h1, ?_, ⟨rfl, rfl, rfl, rfl⟩, ?_, fun _ => rfl⟩
          · cases arg <;> exact hso1
          · intro q _ h; cases h
        | phase q c cs tr3 h1 h2 h3 h4 h5 h6 =>
          obtain ⟨s2, h7, h8, h9⟩ := switch_ok arg { s1 with pf := t2 } p.node q.node h3 (by omega)
            (fun l harg => hl2 l harg q (by simp) h1) (by cases arg <;> exact hso1)
          refine ⟨s2, q.node, h7, h8, h9, ?_, ?_⟩
          · intro q' _ h; cases h; rfl
          · intro h; cases h
      obtain ⟨s2, a2, hsw, hso2, hsame, ha2, ha2'⟩ := hswitch
      obtain ⟨r, hr, hnodes, hri, hrn, hlog, hso3⟩ := ih m2 tr2 out { s2 with pc := .head } k a2 hlen hseq2
        (by simp only [hsame.pf]; exact hrel2) (by simp only [hsame.pf]; exact hstops) rfl hl2 ha2
        (by cases arg <;> exact hso2)
      refine ⟨r, .of_inl hstep (lift_next hret (.inr ⟨hpc1, hsw⟩) hr), hnodes, hri, hrn, ?_, ?_⟩
      · have hf1 := filter_local hloc
        constructor
        · rw [hlog.used]
          simp only [hsame.used, htr]
          rw [← hs1]
          simp only [usedOf, List.filter_cons, hpf, List.filter_append, hf1]
          simp
        · rw [hlog.given]
          simp only [hsame.given, htr]
          rw [← hs1]
          simp only [tasksOf, List.filter_cons, hpf, List.filter_append, hf1]
          simp
        · rw [hlog.calls]
          simp only [hsame.pf, hcalls2, hpf1, hcalls, htr]
          rw [show p :: (tr1 ++ tr2) = [p] ++ (tr1 ++ tr2) from rfl, callsOf_append, callsOf_append]
          simp
      · have : (lastForked (p :: tr')).getD p.node = (lastForked tr2).getD a2 := by
          rw [htr]
          simp only [lastForked, List.filter_cons, hpf, List.filter_append, filter_local hloc, if_true,
            List.nil_append]
          cases hstops with
          | done _ _ => simp [ha2' rfl]
          | phase q c cs tr3 h1 _ _ _ _ _ =>
            simp only [List.filter_cons, h1, if_true, List.getLast?_cons_cons]
            simp [List.getLast?_cons]
        rw [this]
        exact hso3

end PFlow
