import Verif.Model.KV
/-!
Database keys.  Models the key builders of /repo/src/storage/store/account/*.rs,
/repo/src/storage/store/{block,shard}.rs and /repo/src/storage/trie/trie_node.rs.
The root prefixes and postfixes are /repo/src/storage/constants.rs:4-70 and 72-190.
-/
namespace Verif

/-- `make_ts_hash`, /repo/src/storage/store/account/message.rs:96-113.  `ts` is a `u32`. -/
def makeTsHash (ts : Nat) (hash : Bytes) : Except HubErr Bytes :=
  if hash.length ≠ 20 then .error .internal else .ok (be 4 ts ++ hash)

/-- `unpack_ts_hash`, /repo/src/storage/store/account/message.rs:116-125, on a 24-byte array. -/
def unpackTsHash (tsHash : Bytes) : Nat × Bytes := (fromBe (tsHash.take 4), (tsHash.drop 4).take 20)

/-- `make_fid_key`, /repo/src/storage/store/account/message.rs:128-131: the fid is cut to 32 bits. -/
def makeFidKey (fid : Nat) : Bytes := be 4 fid

/-- `read_fid_key`, /repo/src/storage/store/account/message.rs:134-139 (panics if too short). -/
def readFidKey (key : Bytes) (offset : Nat) : Option Nat :=
  if offset + 4 ≤ key.length then some (fromBe ((key.drop offset).take 4)) else none

/-- `read_ts_hash`, /repo/src/storage/store/account/message.rs:142-146 (panics if too short). -/
def readTsHash (key : Bytes) (offset : Nat) : Option Bytes :=
  if offset + 24 ≤ key.length then some ((key.drop offset).take 24) else none

/-- `make_user_key`, /repo/src/storage/store/account/message.rs:149-156. -/
def makeUserKey (fid : Nat) : Bytes := 3 :: makeFidKey fid

/-- `make_message_primary_key`, /repo/src/storage/store/account/message.rs:159-172. -/
def makeMessagePrimaryKey (fid : Nat) (set : UInt8) (tsHash : Option Bytes) : Bytes :=
  makeUserKey fid ++ set :: (match tsHash with | some t => t | none => [])

/-- `make_cast_id_key`, /repo/src/storage/store/account/message.rs:175-181. -/
def makeCastIdKey (fid : Nat) (hash : Bytes) : Bytes := makeFidKey fid ++ hash

/-- `Target` of a reaction and `Parent` of a cast (protobuf oneof): a URL or a cast id. -/
inductive Target where
  | url (u : Bytes)
  | castId (fid : Nat) (hash : Bytes)
  deriving DecidableEq, Repr

/-- `make_target_key`, /repo/src/storage/store/account/reaction_store.rs:408-413, and
`make_parent_key`, /repo/src/storage/store/account/cast_store.rs:277-282. -/
def Target.key : Target → Bytes
  | .url u => u
  | .castId fid h => makeCastIdKey fid h

/-- The zero padding of a link type, e.g. /repo/src/storage/store/account/link_store.rs:267-271
(`resize(8, 0)`, which would also cut a longer type). -/
def padLinkType (t : Bytes) : Bytes := t.take 8 ++ List.replicate (8 - t.length) 0

/-- The kinds of rows of a shard database, with their logical coordinates. -/
inductive RowKey where
  /-- `make_block_key`, /repo/src/storage/store/block.rs:42-49. -/
  | block (n : Nat)
  /-- `make_shard_key`, /repo/src/storage/store/shard.rs:46-54. -/
  | shardChunk (n : Nat)
  /-- `make_block_timestamp_index`, /repo/src/storage/store/block.rs:52-57, shard.rs:56-61. -/
  | blockIndex (shard ts : Nat)
  /-- `make_message_primary_key` with a ts_hash, /repo/src/storage/store/account/message.rs:159-172. -/
  | message (fid : Nat) (set : UInt8) (tsHash : Bytes)
  /-- `make_cast_adds_key`, /repo/src/storage/store/account/cast_store.rs:316-326. -/
  | castAdd (fid : Nat) (hash : Bytes)
  /-- `make_cast_removes_key`, /repo/src/storage/store/account/cast_store.rs:349-359. -/
  | castRemove (fid : Nat) (hash : Bytes)
  /-- `link_add_key`, /repo/src/storage/store/account/link_store.rs:247-281; `type8` is the padded type. -/
  | linkAdd (fid : Nat) (type8 : Bytes) (target : Nat)
  /-- `link_remove_key`, /repo/src/storage/store/account/link_store.rs:290-325. -/
  | linkRemove (fid : Nat) (type8 : Bytes) (target : Nat)
  /-- `link_compact_state_add_key`, /repo/src/storage/store/account/link_store.rs:225-238. -/
  | linkCompact (fid : Nat) (type8 : Bytes)
  /-- `make_reaction_adds_key`, /repo/src/storage/store/account/reaction_store.rs:415-439. -/
  | reactionAdd (fid : Nat) (ty : UInt8) (targetKey : Bytes)
  /-- `make_reaction_removes_key`, /repo/src/storage/store/account/reaction_store.rs:441-465. -/
  | reactionRemove (fid : Nat) (ty : UInt8) (targetKey : Bytes)
  /-- `make_verification_adds_key`, /repo/src/storage/store/account/verification_store.rs:232-238. -/
  | verificationAdd (fid : Nat) (address : Bytes)
  /-- `make_verification_removes_key`, /repo/src/storage/store/account/verification_store.rs:241-247. -/
  | verificationRemove (fid : Nat) (address : Bytes)
  /-- `make_user_data_adds_key`, /repo/src/storage/store/account/user_data_store.rs:136-146, type > 0. -/
  | userData (fid : Nat) (ty : UInt8)
  /-- `make_username_proof_by_fid_key`, /repo/src/storage/store/account/username_proof_store.rs:350-358. -/
  | usernameProof (fid : Nat) (name : Bytes)
  /-- `make_storage_lend_primary_key`, /repo/src/storage/store/account/storage_lend_store.rs:152-159. -/
  | lend (fromFid toFid : Nat)
  /-- `author_slot_key`, /repo/src/storage/store/account/channel_store.rs:193-206; postfix 108..111. -/
  | channelAuthor (fid : Nat) (pf : UInt8) (suffix : Bytes)
  /-- `make_cast_by_parent_key`, /repo/src/storage/store/account/cast_store.rs:255-274, fid > 0. -/
  | castByParent (parentKey tsHash : Bytes) (fid : Nat)
  /-- `make_cast_by_mention_key`, /repo/src/storage/store/account/cast_store.rs:330-345, fid > 0. -/
  | castByMention (mention : Nat) (tsHash : Bytes) (fid : Nat)
  /-- `links_by_target_key`, /repo/src/storage/store/account/link_store.rs:366-406. -/
  | linkByTarget (target : Nat) (tsHash : Bytes) (fid : Nat)
  /-- `make_reactions_by_target_key`, /repo/src/storage/store/account/reaction_store.rs:389-406, fid > 0. -/
  | reactionByTarget (targetKey tsHash : Bytes) (fid : Nat)
  /-- `TrieNode::make_primary_key`, /repo/src/storage/trie/trie_node.rs:111-121. -/
  | trieNode (path : Bytes)
  /-- `make_event_key`, /repo/src/storage/store/account/event.rs:148-156. -/
  | hubEvent (id : Nat)
  /-- `make_fname_username_proof_key`, /repo/src/storage/store/account/name_registry_events.rs:15-20. -/
  | fname (name : Bytes)
  /-- `make_fname_username_proof_by_fid_key`, name_registry_events.rs:23-29. -/
  | fnameByFid (fid : Nat)
  /-- `make_onchain_event_primary_key`, /repo/src/storage/store/account/onchain_event_store.rs:108-115. -/
  | onchain (ty : UInt8) (fid block log : Nat)
  /-- `make_signer_onchain_event_by_signer_key`, onchain_event_store.rs:151-159. -/
  | signerByFid (fid : Nat) (key : Bytes)
  /-- `make_id_register_by_fid_key`, onchain_event_store.rs:142-149. -/
  | idRegisterByFid (fid : Nat)
  /-- `make_channel_register_by_channel_key`, onchain_event_store.rs:161-168. -/
  | channelByKey (key : Bytes)
  /-- `make_channel_register_channel_key_by_label_key`, onchain_event_store.rs:170-177. -/
  | channelByLabel (label : Bytes)
  /-- `make_channel_register_by_owner_address_key`, onchain_event_store.rs:188-192. -/
  | channelByOwner (owner key : Bytes)
  /-- `make_schema_version_key`, /repo/src/storage/store/stores.rs:384-386. -/
  | schemaVersion
  /-- `make_verification_by_address_key`, verification_store.rs:225-229. -/
  | verificationByAddress (address : Bytes) (fid : Nat)
  /-- `make_username_proof_by_name_key`, username_proof_store.rs:340-347. -/
  | usernameByName (name : Bytes)
  /-- `make_block_event_key`, /repo/src/storage/store/account/block_event_store.rs:33-39. -/
  | blockEvent (seqnum : Nat)
  /-- `by_borrower_secondary_index_key`, storage_lend_store.rs:161-177. -/
  | lendByRecipient (toFid fromFid : Nat)
  /-- `make_user_nonce_key`, /repo/src/storage/store/account/key_nonce_store.rs:38-48. -/
  | keyUserNonce (fid : Nat)
  /-- `make_app_nonce_key`, key_nonce_store.rs:50-52. -/
  | keyAppNonce (fid : Nat)
  /-- `make_last_used_at_key`, /repo/src/storage/store/account/key_last_used_at_store.rs:59-67. -/
  | keyLastUsedAt (fid : Nat) (pk : Bytes)
  /-- `make_gasless_key_by_fid_key`, /repo/src/storage/store/account/key_add_store.rs:125-133. -/
  | keyByFid (fid : Nat) (pk : Bytes)
  /-- `make_gasless_key_by_public_key_key`, key_add_store.rs:182-190. -/
  | keyByPublicKey (pk : Bytes)
  /-- `make_gasless_key_count_by_fid_key`, key_add_store.rs:258-264. -/
  | keyCount (fid : Nat)
  /-- `channel_index_key`, /repo/src/storage/store/account/channel_store.rs:246-253, indexes 1..7; and
  `make_member_by_fid_key` (755-766) with index 8, whose leading part is the target fid. -/
  | channelIndex (index : UInt8) (rest : Bytes)
  /-- `make_follow_by_fid_key`, reaction_store.rs:270-287. -/
  | followByFid (fid : Nat) (channelId : Bytes)
  /-- `make_follow_by_channel_key`, reaction_store.rs:290-303. -/
  | followByChannel (channelId : Bytes) (fid : Nat)
  deriving DecidableEq, Repr

namespace RowKey

/-- The database key of a row; each case cites its builder above. -/
def bytes : RowKey → Bytes
  | block n => 1 :: be 8 n
  | shardChunk n => 2 :: be 8 n
  | blockIndex s t => 18 :: (be 4 s ++ be 8 t)
  | message fid set th => makeMessagePrimaryKey fid set (some th)
  | castAdd fid h => makeUserKey fid ++ 87 :: h
  | castRemove fid h => makeUserKey fid ++ 88 :: h
  | linkAdd fid t tgt => makeUserKey fid ++ 89 :: (t ++ makeFidKey tgt)
  | linkRemove fid t tgt => makeUserKey fid ++ 90 :: (t ++ makeFidKey tgt)
  | linkCompact fid t => makeUserKey fid ++ 100 :: t
  | reactionAdd fid ty tk => makeUserKey fid ++ 91 :: ty :: tk
  | reactionRemove fid ty tk => makeUserKey fid ++ 92 :: ty :: tk
  | verificationAdd fid a => makeUserKey fid ++ 93 :: a
  | verificationRemove fid a => makeUserKey fid ++ 94 :: a
  | userData fid ty => makeUserKey fid ++ [97, ty]
  | usernameProof fid n => makeUserKey fid ++ 99 :: n
  | lend f t => makeUserKey f ++ 101 :: makeFidKey t
  | channelAuthor fid p s => makeUserKey fid ++ p :: s
  | castByParent pk th fid => 4 :: (pk ++ (th ++ makeFidKey fid))
  | castByMention m th fid => 5 :: (makeFidKey m ++ (th ++ makeFidKey fid))
  | linkByTarget t th fid => 6 :: (makeFidKey t ++ (th ++ makeFidKey fid))
  | reactionByTarget tk th fid => 7 :: (tk ++ (th ++ makeFidKey fid))
  | trieNode p => 8 :: p
  | hubEvent id => 9 :: be 8 id
  | fname n => 11 :: n
  | fnameByFid fid => 15 :: makeFidKey fid
  | onchain ty fid b l => 12 :: 1 :: ty :: (makeFidKey fid ++ (be 4 b ++ be 4 l))
  | signerByFid fid k => 12 :: 51 :: (makeFidKey fid ++ k)
  | idRegisterByFid fid => 12 :: 52 :: makeFidKey fid
  | channelByKey k => 12 :: 55 :: k
  | channelByLabel l => 12 :: 56 :: l
  | channelByOwner o k => 12 :: 57 :: (o ++ k)
  | schemaVersion => [13]
  | verificationByAddress a fid => 14 :: (a ++ makeFidKey fid)
  | usernameByName n => 16 :: n
  | blockEvent s => 19 :: be 8 s
  | lendByRecipient t f => 22 :: (makeFidKey t ++ makeFidKey f)
  | keyUserNonce fid => 23 :: 102 :: makeFidKey fid
  | keyAppNonce fid => 23 :: 103 :: makeFidKey fid
  | keyLastUsedAt fid pk => 23 :: 104 :: (makeFidKey fid ++ pk)
  | keyByFid fid pk => 23 :: 105 :: (makeFidKey fid ++ pk)
  | keyByPublicKey pk => 23 :: 106 :: pk
  | keyCount fid => 23 :: 107 :: makeFidKey fid
  | channelIndex i r => 24 :: i :: r
  | followByFid fid id => 25 :: 1 :: (makeFidKey fid ++ id)
  | followByChannel id fid => 25 :: 2 :: (id ++ makeFidKey fid)

/-- The users whose data a row is part of (first coordinate first). -/
def fids : RowKey → List Nat
  | message fid _ _ | castAdd fid _ | castRemove fid _ | linkCompact fid _ | reactionAdd fid _ _
  | reactionRemove fid _ _ | verificationAdd fid _ | verificationRemove fid _ | userData fid _
  | usernameProof fid _ | channelAuthor fid _ _ | castByParent _ _ fid | reactionByTarget _ _ fid
  | fnameByFid fid | onchain _ fid _ _ | signerByFid fid _ | idRegisterByFid fid
  | verificationByAddress _ fid | keyUserNonce fid | keyAppNonce fid | keyLastUsedAt fid _
  | keyByFid fid _ | keyCount fid | followByFid fid _ | followByChannel _ fid => [fid]
  | linkAdd fid _ t | linkRemove fid _ t | lend fid t => [fid, t]
  | castByMention m _ fid | linkByTarget m _ fid | lendByRecipient m fid => [fid, m]
  | _ => []

/-- Widths the code guarantees: fids and on-chain coordinates fit in 32 bits, block numbers, event
ids, sequence numbers and timestamps in 64, hashes and ts_hashes have 20 and 24 bytes (`make_ts_hash`
and the `hash.len() == HASH_LENGTH` tests), link types are padded to 8, message sets are 1..85
(constants.rs:76-93), channel author sets are 108..111, owner addresses have 20 bytes. -/
def WF (r : RowKey) : Prop :=
  (∀ fid ∈ r.fids, fid < 2 ^ 32) ∧
  match r with
  | block n | shardChunk n | hubEvent n | blockEvent n => n < 2 ^ 64
  | blockIndex s t => s < 2 ^ 32 ∧ t < 2 ^ 64
  | message _ set th => set.toNat ≤ 85 ∧ th.length = 24
  | castAdd _ h | castRemove _ h => h.length = 20
  | linkAdd _ t _ | linkRemove _ t _ => t.length = 8
  | castByParent _ th _ | castByMention _ th _ | linkByTarget _ th _ | reactionByTarget _ th _ =>
    th.length = 24
  | onchain _ _ b l => b < 2 ^ 32 ∧ l < 2 ^ 32
  | channelAuthor _ p _ => 108 ≤ p.toNat ∧ p.toNat ≤ 111
  | channelByOwner o _ => o.length = 20
  | followByChannel id _ => id.length = 32
  | _ => True

end RowKey
end Verif
