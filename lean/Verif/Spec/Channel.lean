import Verif.Model.Channel
/-!
Specification vocabulary for channels: slots, histories of a node's channel state and the record of the
messages that were accepted.  Nothing here mentions pointers, counters or index rows.
-/
namespace Verif

/-- A slot of channel state: the configuration of a channel, the membership of one user in it, its pin,
the moderation of one cast in it. -/
inductive ChanSlot where
  | config (channel : Bytes)
  | member (channel : Bytes) (fid : Nat)
  | pin (channel : Bytes)
  | cast (channel : Bytes) (hash : Bytes)
  deriving DecidableEq, Repr

/-- The slot a message is about. -/
def Msg.chanSlot (m : Msg) : Option ChanSlot :=
  match m.body with
  | .channelUpdate c _ _ => some (.config c)
  | .channelMember c f _ => some (.member c f)
  | .channelPin c _ => some (.pin c)
  | .channelModerate c h _ => some (.cast c h)
  | _ => none

/-- The channel of a slot. -/
def ChanSlot.channel : ChanSlot → Bytes
  | config c => c | member c _ => c | pin c => c | cast c _ => c

/-- The store of a slot. -/
def ChanSlot.kind : ChanSlot → ChanKind
  | config _ => .update | member _ _ => .member | pin _ => .pin | cast _ _ => .moderate

/-- Slots with a 32-byte channel id, a 32-bit user and a 20-byte cast hash. -/
def ChanSlot.WF : ChanSlot → Prop
  | config c => c.length = 32
  | member c f => c.length = 32 ∧ f < 2 ^ 32
  | pin c => c.length = 32
  | cast c h => c.length = 32 ∧ h.length = 20

/-- Of the accepted messages (newest first), the newest one for a slot. -/
def newestFor (log : List Msg) (s : ChanSlot) : Option Msg := log.find? (fun m => m.chanSlot = some s)

/-- One step of a node that holds channel state. -/
inductive ChanOp where
  /-- Shard 0 admits and merges a message; `owner` is what the registry says at that moment. -/
  | submit (owner : Bytes → Option (Option Nat)) (m : Msg)
  /-- Any node merges a message without admission checks (replay of a block event, replication:
  /repo/src/storage/store/engine.rs:732-979). -/
  | merge (K : ChanKind) (write : Bool) (m : Msg)
  /-- Another store writes (`some`) or deletes (`none`) a row. -/
  | other (k : Bytes) (v : Option SVal)
  /-- The batch is committed. -/
  | commit
  /-- The batch is dropped. -/
  | drop
  /-- A new block starts. -/
  | block (height : Nat)
  /-- Others draw event numbers. -/
  | numbers (g : IdGen)

/-- A key of another store: not under the channel prefix (24) and not a message of a channel type
(sets 9 to 12 of a user). -/
def ForeignKey (k : Bytes) : Prop :=
  k.head? ≠ some 24 ∧ (k.head? = some 3 → k[5]? ≠ some 9 ∧ k[5]? ≠ some 10 ∧ k[5]? ≠ some 11 ∧ k[5]? ≠ some 12)

/-- A node's channel state with the record of accepted messages, newest first: all of them, and those
committed. -/
structure ChanNode where
  st : StoreState := {}
  log : List Msg := []
  saved : List Msg := []

namespace ChanNode

/-- Keep the batch a merge leaves and record its message if it succeeded. -/
def after (n : ChanNode) (m : Msg) (r : Except HubErr StoreEvent × SSt) : ChanNode :=
  match r with
  | (.ok _, p) => { n with st := { n.st with pend := p }, log := m :: n.log }
  | (.error _, p) => { n with st := { n.st with pend := p } }

/-- The outcome of an admission. -/
def submitResult (caps : SlotCaps) (n : ChanNode) (owner : Bytes → Option (Option Nat)) (m : Msg) :
    Except HubErr StoreEvent × SSt := submitChannel caps n.st.db owner m n.st.pend

/-- Run one step. -/
def exec (caps : SlotCaps) (n : ChanNode) : ChanOp → ChanNode
  | .submit owner m => n.after m (n.submitResult caps owner m)
  | .merge K w m => n.after m (mergeSlot K caps n.st.db w m n.st.pend)
  | .other k v => { n with st := { n.st with pend := { n.st.pend with txn := OMap.put n.st.pend.txn k v } } }
  | .commit => { n with st := ⟨Db.commit n.st.db n.st.pend.txn, { n.st.pend with txn := OMap.empty }⟩, saved := n.log }
  | .drop => { n with st := { n.st with pend := { n.st.pend with txn := OMap.empty } }, log := n.saved }
  | .block h => { n with st := { n.st with pend := { n.st.pend with gen := n.st.pend.gen.setHeight h } } }
  | .numbers g => { n with st := { n.st with pend := { n.st.pend with gen := g } } }

/-- Run a history. -/
def run (caps : SlotCaps) (n : ChanNode) (ops : List ChanOp) : ChanNode := ops.foldl (exec caps) n

/-- The message in a slot, as readers see it. -/
def slot (n : ChanNode) (s : ChanSlot) : Except HubErr (Option Msg) :=
  loadSlot s.kind n.st.db n.st.pend.txn (match s with
    | .config c => 24 :: 1 :: c
    | .member c f => 24 :: 2 :: (c ++ be 4 f)
    | .pin c => 24 :: 3 :: c
    | .cast c h => 24 :: 4 :: (c ++ h))

/-- The stored slot counter of a channel (`ChannelMemberStore::slot_count`,
`ChannelModerateStore::slot_count`). -/
def slotCounter (n : ChanNode) (K : ChanKind) (channel : Bytes) : Except HubErr Nat :=
  slotCount K n.st.db n.st.pend.txn channel

/-- The stored moderator counter of a channel (`ChannelMemberStore::live_moderator_count`). -/
def moderatorCounter (n : ChanNode) (channel : Bytes) : Except HubErr Nat :=
  liveModeratorCount n.st.db n.st.pend.txn channel

/-- The role of a user in a channel (`ChannelMemberStore::member_state`). -/
def role (n : ChanNode) (channel : Bytes) (fid : Nat) : Except HubErr (Option MemberState) :=
  memberState n.st.db n.st.pend.txn channel fid

end ChanNode

/-- Steps that occur: other stores keep to their keys, messages are taken from `U`, whose times have 32
bits, as in the code. -/
def ChanOp.Fair (U : Msg → Prop) : ChanOp → Prop
  | .submit _ m => U m ∧ m.ts < 2 ^ 32
  | .merge _ _ m => U m ∧ m.ts < 2 ^ 32
  | .other k _ => ForeignKey k
  | _ => True

/-- Steps of shard 0, where every message is admitted first. -/
def ChanOp.OnShardZero : ChanOp → Prop
  | .merge _ _ _ => False
  | _ => True

end Verif

namespace Verif

/-- Who may change a user's role in a channel, in words: `owner` is the channel owner if known, `isMod`
whether the author is a moderator of the channel, `isOpen` whether the channel lets users join by
themselves. -/
structure RoleChangeAllowed (owner : Option Nat) (author target : Nat) (isMod isOpen : Prop)
    (old new : Option MemberState) : Prop where
  /-- nobody's record disappears -/
  kept : new ≠ none
  /-- a ban ends only by the owner or a moderator, and not with a role -/
  unban : old = some .banned → (owner = some author ∨ isMod) ∧ new = some .removed
  /-- bans are for the owner and moderators, against moderators for the owner only, and never hit the owner -/
  ban : new = some .banned → owner ≠ some target ∧
    (owner = some author ∨ (isMod ∧ old ≠ some .moderator))
  /-- moderators are appointed by the owner -/
  appoint : new = some .moderator → owner = some author
  /-- and dismissed by the owner, unless they leave -/
  dismiss : old = some .moderator → owner = some author ∨ (author = target ∧ new = some .removed)
  /-- anyone else can only join an open channel or leave -/
  plain : owner ≠ some author → ¬ isMod → author = target ∧
    ((isOpen ∧ (old = none ∨ old = some .removed) ∧ new = some .member) ∨
      (old = some .member ∧ new = some .removed))
  /-- while the owner is unknown users can only leave -/
  parked : owner = none → author = target ∧ new = some .removed

/-- The membership mode of a channel, as `GetChannel` and admission see it. -/
def ChanNode.mode (n : ChanNode) (channel : Bytes) : Except HubErr MembershipMode :=
  membershipMode n.st.db n.st.pend.txn channel

end Verif
