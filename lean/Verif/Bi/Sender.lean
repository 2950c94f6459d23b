import Verif.Bi.NodeProps

/-!
# `SenderBiNode` (bimdp/nodes/miscnodes.py), C298

Data in a message are the opaque values `BVal.other`. -/

namespace Bi

open Py

variable {σ A : Type}

def kMsgX : Str := ['m', 's', 'g', '_', 'x']
def kNoX : Str := ['n', 'o', '_', 'x']

/-- The key under which the data are sent (miscnodes.py 20-23): a recipient that is `None` or empty counts as none. -/
def senderKey : Option Str → Str
  | none => kMsgX
  | some r => if r.isEmpty then kMsgX else addr r kMsgX

/-- `SenderBiNode._execute` (miscnodes.py 17-26). The value of `x` in the message is `None` if there are no data. -/
def senderExec (recipient : Option Str) : BMethod σ A A where
  argKeys := [kSelf, kX, kNoX]
  run := fun i x args _ =>
    let v : BVal A := match x with | none => .none | some a => .other a
    let y := if ((Dict.get args kNoX).getD .none).truthy then none else x
    (.ok (.pair y (some [(senderKey recipient, v)])), i)

/-- A node whose `_execute` is that of a `SenderBiNode` with this recipient; everything else is arbitrary. -/
def IsSender (K : BKind σ A A) (recipient : Option Str) : Prop := K.exec = senderExec recipient

theorem noX_plain : ¬ HasSep kNoX := by
  rcases key_cases kNoX with h | ⟨a, b, _, _, _, h'⟩
  · exact h.1
  · have : find kNoX = -1 := by decide
    rw [this] at h'
    omega

theorem msgX_plain : ¬ HasSep kMsgX := by
  rcases key_cases kMsgX with h | ⟨a, b, _, _, _, h'⟩
  · exact h.1
  · have : find kMsgX = -1 := by decide
    rw [this] at h'
    omega

/-- C298: when a sender is executed with data, the data are in its message under the key for the recipient (or the plain key, if there is none), and are also handed on, unless the
message says `no_x`. -/
theorem sender_sends {K : BKind σ A A} {recipient : Option Str} (hK : IsSender K recipient) {x : A} {s s' : St σ A} {r' : BRes A A} (hg : GoodId K.nodeId)
    (hm : Dict.Ok s.cell) (hmeth : (want K.nodeId s.cell kMethod).truthy = false) (h : execute K (some x) true s = (.ok r', s')) :
    ∃ a, r'.entry (senderKey recipient) = some (.other a) ∧
      r'.data = if (((mine K.nodeId s.cell kNoX).or (Dict.get s.cell kNoX)).getD .none).truthy then none else some a := by
  obtain ⟨meth, i, x', args, marg, r, i', h1, h2, h3, h4, h5, _, h7, h8, _⟩ := execute_routes hg hm h
  have hme : meth = senderExec recipient := by
    rw [← hK]
    rcases h1 with ⟨_, h1⟩ | ⟨h1, _⟩ | ⟨t, h1, ht, _⟩
    · exact h1
    · rw [h1] at hmeth; exact absurd hmeth (by simp [BVal.truthy, sInverse])
    · rw [h1] at hmeth
      cases t with
      | nil => exact absurd rfl ht
      | cons c t => exact absurd hmeth (by simp [BVal.truthy])
  subst hme
  obtain ⟨a, rfl⟩ : ∃ a, x' = some a := Option.isSome_iff_exists.1 (by rw [h3]; rfl)
  have hargs := h4 kNoX noX_plain (by decide) (by decide) (by decide)
  rw [if_pos (by simp [senderExec])] at hargs
  simp only [senderExec, Prod.mk.injEq, Except.ok.injEq] at h2
  obtain ⟨rfl, _⟩ := h2
  refine ⟨a, ?_, ?_⟩
  · have hok : (BRes.pair (V := A) (if ((Dict.get args kNoX).getD .none).truthy then none else some a) (some [(senderKey recipient, BVal.other a)])).Ok := by
      intro d hd
      cases hd
      unfold Dict.Ok
      simp [Dict.keys]
    have he : BRes.entry (V := A) (.pair (if ((Dict.get args kNoX).getD .none).truthy then none else some a) (some [(senderKey recipient, BVal.other a)])) (senderKey recipient) =
        some (.other a) := by
      simp [BRes.entry, Dict.get]
    by_cases hk : Addressed K.nodeId (senderKey recipient)
    · rw [((h8 hok) _).1 (.inr hk), he]
    · rw [((h8 hok) _).2 (by simp [senderExec, kMsg, kSelf, kX, kNoX]) hk, he]
      rfl
  · rw [h7]
    simp only [BRes.data]
    rw [hargs]

/-- C298: a node with the id of the recipient, whose method has an argument `msg_x`, is called with the data, and the message that goes on does not contain them any more. -/
theorem sender_delivered {K : BKind σ A A} {recipient : Str} (hid : K.nodeId = some recipient) (hne : recipient ≠ []) {x : Option A} {a : A} {s s' : St σ A} {r' : BRes A A}
    (hg : GoodId K.nodeId) (hm : Dict.Ok s.cell) (hmsg : Dict.get s.cell (senderKey (some recipient)) = some (.other a))
    (h : execute K x true s = (.ok r', s')) :
    ∃ meth i x' args marg r i', Asked K (want K.nodeId s.cell kMethod) K.exec meth ∧ meth.run i x' args marg = (.ok r, i') ∧
      (kMsgX ∈ meth.argKeys → Dict.get args kMsgX = some (.other a)) ∧
      (r.Ok → r'.entry (senderKey (some recipient)) = r.entry (senderKey (some recipient))) := by
  obtain ⟨meth, i, x', args, marg, r, i', h1, h2, _, h4, _, _, _, h8, _⟩ := execute_routes hg hm h
  have hk : senderKey (some recipient) = addr recipient kMsgX := by simp [senderKey, hne]
  refine ⟨meth, i, x', args, marg, r, i', h1, h2, ?_, ?_⟩
  · intro hin
    rw [h4 kMsgX msgX_plain (by decide) (by decide) (by decide), if_pos hin]
    simp only [mine, hid]
    rw [← hk, hmsg]
    rfl
  · intro hok
    refine ((h8 hok) _).1 (.inr ⟨kMsgX, recipient, hid, hk⟩)

/-- C298: every other node that hands messages on hands the data on to the recipient. -/
theorem sender_passed_on {K : BKind σ A A} {recipient : Str} (hid : K.nodeId ≠ some recipient) (hne : recipient ≠ []) (hs : ¬ HasSep recipient) {x : Option A} {a : A}
    {s s' : St σ A} {r' : BRes A A} (hg : GoodId K.nodeId) (hm : Dict.Ok s.cell) (hmsg : Dict.get s.cell (senderKey (some recipient)) = some (.other a))
    (h : execute K x true s = (.ok r', s')) :
    ∃ meth i x' args marg r i', Asked K (want K.nodeId s.cell kMethod) K.exec meth ∧ meth.run i x' args marg = (.ok r, i') ∧
      (r.Ok → kMsg ∉ meth.argKeys → r.entry (senderKey (some recipient)) = none → r'.entry (senderKey (some recipient)) = some (.other a)) := by
  obtain ⟨meth, i, x', args, marg, r, i', h1, h2, _, h4, _, _, _, h8, _⟩ := execute_routes hg hm h
  have hk : senderKey (some recipient) = addr recipient kMsgX := by simp [senderKey, hne]
  refine ⟨meth, i, x', args, marg, r, i', h1, h2, ?_⟩
  intro hok hkm hr
  have hn : ¬ Addressed K.nodeId (senderKey (some recipient)) := by
    rintro ⟨k, id, h3, h5⟩
    rw [hk] at h5
    have := addr_inj hs (hg id h3).2 h5
    exact hid (by rw [h3, this.1])
  rw [((h8 hok) _).2 hkm hn, hr, hmsg]
  rfl

/-- C298, false: a recipient whose name contains the separator is accepted, and then every node that gets the message raises a ValueError. -/
theorem sender_separator_violation (K : BKind σ A A) (b c : Str) (hb : b ≠ []) (hb' : ¬ HasSep b) (x : Option A) (s : St σ A) {v : BVal A}
    (hmsg : Dict.get s.cell (senderKey (some (addr b c))) = some v) : execute K x true s = (.error .valueError, s) := by
  refine execute_bad_key K x s ?_
  intro hw
  have hk : senderKey (some (addr b c)) = addr b (addr c kMsgX) := by
    have : addr b c ≠ [] := by simp [addr]
    simp [senderKey, this, addr]
  have hmem : senderKey (some (addr b c)) ∈ Dict.keys s.cell := by
    refine Decidable.byContradiction fun hn => ?_
    rw [(Dict.get_none _ _).2 hn] at hmsg
    exact absurd hmsg (by simp)
  exact hw _ hmem b (addr c kMsgX) hk hb hb' ⟨c, kMsgX, rfl⟩

/-- A sender to the node `n` without an id. -/
def demoSender : BKind Unit Nat Nat where
  nodeId := none
  nPhases := 0
  exec := senderExec (some ['n'])
  inv := { argKeys := [kSelf, kX], run := fun i x _ _ => (.ok (.single x), i) }
  train := fun _ => { argKeys := [kSelf, kX], run := fun i _ _ _ => (.ok (.single none), i) }
  stop := fun _ => { argKeys := [kSelf], run := fun i _ _ _ => (.ok (.single none), i) }
  method := fun _ => none
  preExec := fun i _ => (.ok (), i)
  preInv := fun i _ => (.ok (), i)
  checkInput := fun i _ => (.ok (), i)
  checkTrainArgs := fun _ _ _ => .ok ()
  refcast := fun _ x => x
  stopResult := none

example : IsSender demoSender (some ['n']) := rfl
example : dataOf (execute demoSender (some 5) true { inner := (), cell := [(kNoX, .int 1)] }).1 = some none ∧
    (execute demoSender (some 5) true { inner := (), cell := [(kNoX, .int 1)] }).2.cell = [(kNoX, .int 1), (addr ['n'] kMsgX, .other 5)] := by
  constructor <;> decide

end Bi
