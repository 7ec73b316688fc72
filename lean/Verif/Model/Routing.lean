import Verif.Model.Bytes
import Verif.Model.Version
import Verif.Model.MessageType
/-!
Shard routing.  Models /repo/src/mempool/routing.rs.
-/
namespace Verif

/-- `ShardRouter::route_fid`, /repo/src/mempool/routing.rs:13-20.  `sha256` is a parameter.  `none` is
the panic on `num_shards = 0`. -/
def routeFid (sha256 : Bytes → Bytes) (fid : Nat) (numShards : Nat) : Option Nat :=
  let hash := sha256 (be 4 (fid % 2 ^ 32))
  let hashU32 := fromBe (hash.take 4)
  if numShards = 0 then none else some (hashU32 % numShards + 1)

/-- `route_message`, /repo/src/mempool/routing.rs:39-87.  Of the message only type and fid matter. -/
def routeMessage (sha256 : Bytes → Bytes) (ty : MessageType) (fid : Nat) (numShards : Nat)
    (version : EngineVersion) : Option Nat :=
  match ty with
  | .lendStorage | .keyAdd | .keyRemove | .channelUpdate | .channelMember | .channelPin
  | .channelModerate => some 0
  | .verificationAdd | .verificationRemove =>
    if version.isEnabled .verificationsOnShardZero then some 0 else routeFid sha256 fid numShards
  | _ => routeFid sha256 fid numShards

/-- `TRIE_SHARD_SIZE`, /repo/src/storage/trie/merkle_trie.rs. -/
def trieShardSize : Nat := 256

/-- `TrieKey::fid_shard`, /repo/src/storage/trie/merkle_trie.rs:100-105. -/
def fidShard (sha256 : Bytes → Bytes) (fid : Nat) : UInt8 :=
  match routeFid sha256 fid trieShardSize with
  | some s => UInt8.ofNat (s - 1)
  | none => 0

end Verif
