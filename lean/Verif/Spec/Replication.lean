import Verif.Model.Replication
import Verif.Spec.StoreTrie
/-! What replication is asked to do. -/
namespace Verif

/-- The messages a server can replicate: not frame actions and key messages, and channel messages only when enabled. -/
def Replicated (channels : Bool) (t : MessageType) : Prop :=
  t ≠ .none ∧ t ≠ .frameAction ∧ t ≠ .keyAdd ∧ t ≠ .keyRemove ∧
  (t = .channelUpdate ∨ t = .channelMember ∨ t = .channelPin ∨ t = .channelModerate → channels = true)

/-- Message entries that are replicated.  The histories of C64 merge no compact states of links, and user 0 does not
exist. -/
def EntriesServed (kind : StoreKind) (channels : Bool) (E : TrieEntry → Prop) : Prop :=
  ∀ f ty hash, E (.message f ty hash) → 0 < f ∧ (∃ t, t.num = ty ∧ Replicated channels t) ∧ (kind = .links → ty ≠ 14)

/-- What the two nodes agree on and what is assumed of it: hashes are never empty, maps and sets yield all their
elements, entries fit the trie (C24, C25) and are of types the server answers for, and no message lends nothing (such a
loan is pruned when it is merged). -/
structure Setting (c : ReplCfg) (kind : StoreKind) (channelOf : Bytes → Option Bytes) (U : Msg → Prop) (E : TrieEntry → Prop) : Prop where
  D : c.D = kind.store channelOf
  naming : ChannelNaming channelOf
  hashes : HashesAlone U
  H : ∀ x, c.H x ≠ []
  ord : ∀ l, (c.ord l).Perm l
  set : ∀ l k, k ∈ c.hashSet l ↔ k ∈ l
  fit : EntriesFit c.sha256 E
  entries : ∀ m, kind.Valid m → U m → ∀ x ∈ m.entries, E x
  served : EntriesServed kind c.channels E
  lends : ∀ m, kind.Valid m → U m → m.lendsNothing = false

/-- The number of pages a step completes for a virtual shard. -/
def ReplOp.pagesFor (v : UInt8) : ReplOp → Nat
  | .page w _ => if w = v then 1 else 0
  | _ => 0

/-- The node stops while it imports a page of the virtual shard. -/
def ReplOp.stopsIn (v : UInt8) : ReplOp → Bool
  | .lost w _ => w = v
  | _ => false

/-- The keys are those of entries of other kinds. -/
def OtherKey (sha256 : Bytes → Bytes) (kind : StoreKind) (E : TrieEntry → Prop) (k : Bytes) : Prop :=
  ∃ x, E x ∧ k = x.key sha256 ∧ ∀ m, kind.Valid m → x ∉ m.entries

/-- What holds of an entry whoever sent it: the trie can keep its key apart, a message carries its right hash (`U`, see
C46 and `HashesAlone`), and an item of another kind yields keys of other kinds.  The message need not be valid. -/
def ReplEntry.Plausible (c : ReplCfg) (kind : StoreKind) (U : Msg → Prop) (E : TrieEntry → Prop) (e : ReplEntry) : Prop :=
  (∃ x, E x ∧ e.key = x.key c.sha256) ∧
  match e.item with
  | .message m => U m ∧ ∀ x ∈ m.entries, x.Valid
  | .other keys => ∀ k ∈ keys, OtherKey c.sha256 kind E k

/-- The pages that reach the node in a step. -/
def PeerOp.entries : PeerOp → List ReplEntry
  | .page _ answer _ => answer.entries
  | .lost _ answer _ => answer.entries
  | .restart => []

/-- No item is passed over as a duplicate under the key of a message of the store. -/
def PeerOp.NoFalseDuplicate (c : ReplCfg) (kind : StoreKind) : PeerOp → Prop
  | .page _ answer dup => ∀ e ∈ answer.entries, dup e.key = true → ∀ m, kind.Valid m → e.key ∉ trieKeysForMessage c.sha256 m
  | .lost _ answer dup => ∀ e ∈ answer.entries, dup e.key = true → ∀ m, kind.Valid m → e.key ∉ trieKeysForMessage c.sha256 m
  | .restart => True

end Verif
