import Verif.Model.ShardTrie
import Verif.Model.TrieRead
import Verif.Model.Storage
/-!
How many messages a user has, as the node reckons, and pruning to the user's limit.  Counts come from the state trie,
limits from the user's storage.
-/
namespace Verif

/-- `Limits::message_type_to_store_type`, /repo/src/storage/store/stores.rs:147-174. -/
def storeTypeOf : MessageType → LimitKind
  | .castAdd | .castRemove => .casts
  | .reactionAdd | .reactionRemove => .reactions
  | .linkAdd | .linkRemove | .linkCompactState => .links
  | .verificationAdd | .verificationRemove => .verifications
  | .userDataAdd => .userData
  | .usernameProof => .usernameProofs
  | .lendStorage => .lends
  | .none | .frameAction | .keyAdd | .keyRemove | .channelUpdate | .channelMember | .channelPin | .channelModerate => .none

/-- `Limits::store_type_to_message_types`, stores.rs:176-194. -/
def typesOf : LimitKind → List MessageType
  | .casts => [.castAdd, .castRemove]
  | .links => [.linkAdd, .linkRemove, .linkCompactState]
  | .reactions => [.reactionAdd, .reactionRemove]
  | .userData => [.userDataAdd]
  | .verifications => [.verificationAdd, .verificationRemove]
  | .usernameProofs => [.usernameProof]
  | .lends => [.lendStorage]
  | .none => []

/-- `get_usage_by_store_type`, stores.rs:459-483: the counts of the trie for the user and each message type, cut to 32
bits and added up.  (The addition is of `u32`; it wraps in a release build.) -/
def usageOf (sha256 : Bytes → Bytes) (t : TrieState) (fid : Nat) (k : LimitKind) : UInt32 :=
  (typesOf k).foldl (fun n ty => n + UInt32.ofNat (t.getCount (trieKeyType sha256 fid (UInt8.ofNat ty.num)))) 0

/-- `get_usage`, stores.rs:434-456; `slot` is the user's storage, for lends without what is borrowed
(`get_storage_slot_for_fid`, see `slotForFid`). -/
def getUsage (sha256 : Bytes → Bytes) (t : TrieState) (slot : Slot) (fid : Nat) (ty : MessageType) : UInt32 × UInt32 :=
  (usageOf sha256 t fid (storeTypeOf ty), maxMessages slot (storeTypeOf ty))

/-- The store that `prune_messages` of the engine prunes, /repo/src/storage/store/engine.rs:1954-2003.  Loans and keys are
not pruned.  Username proofs are pruned in their own store, which is not one of the stores here. -/
def pruneTarget : MessageType → Option StoreKind
  | .castAdd | .castRemove => some .casts
  | .linkAdd | .linkRemove | .linkCompactState => some .links
  | .reactionAdd | .reactionRemove => some .reactions
  | .userDataAdd => some .userData
  | .verificationAdd | .verificationRemove => some .verifications
  | _ => none

/-- `prune_messages` of the engine, engine.rs:1940-2015, and the update of the trie with its events, engine.rs:1647-1666,
after the messages of a transaction have been merged. -/
def StoreTrie.pruneType (H : Bytes → Bytes) (ord : List UInt8 → List UInt8) (sha256 : Bytes → Bytes)
    (channelOf : Bytes → Option Bytes) (ctx : Nat → MergeCtx) (slot : Slot) (fid : Nat) (ty : MessageType) (s : StoreTrie) :
    Except TrieErr StoreTrie :=
  match pruneTarget ty with
  | none => .ok s
  | some kind =>
    let u := getUsage sha256 s.trie slot fid ty
    s.exec H ord sha256 (kind.store channelOf) ctx (.call (.prune fid u.1.toNat u.2.toNat))

end Verif
