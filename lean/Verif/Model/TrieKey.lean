import Verif.Model.Store
import Verif.Model.Routing
import Verif.Model.Fnames
import Verif.Model.Trie
/-! Trie keys: `TrieKey`, /repo/src/storage/trie/merkle_trie.rs:28-209. -/
namespace Verif

/-- `FNAME_MESSAGE_TYPE` and `USERNAME_MAX_LENGTH`, merkle_trie.rs:15-16. -/
def fnameMessageType : UInt8 := 7
def usernameMaxLength : Nat := 20

/-- `TrieKey::for_fid`, merkle_trie.rs:90-95. -/
def trieKeyFid (sha256 : Bytes → Bytes) (fid : Nat) : Bytes := fidShard sha256 fid :: makeFidKey fid

/-- `TrieKey::for_message_type`, merkle_trie.rs:53-61; the shift is on `u8`. -/
def trieKeyType (sha256 : Bytes → Bytes) (fid : Nat) (ty : UInt8) : Bytes := trieKeyFid sha256 fid ++ [ty <<< (3 : UInt8)]

/-- The key of one message for one user, merkle_trie.rs:34-36. -/
def trieKeyMessage (sha256 : Bytes → Bytes) (fid : Nat) (ty : UInt8) (hash : Bytes) : Bytes := trieKeyType sha256 fid ty ++ hash

/-- `TrieKey::for_message`, merkle_trie.rs:32-50: a storage loan also has a key under the borrower. -/
def trieKeysForMessage (sha256 : Bytes → Bytes) (m : Msg) : List Bytes :=
  trieKeyMessage sha256 m.fid (UInt8.ofNat m.ty.num) m.hash ::
    match m.body with
    | .lend toFid _ _ => [trieKeyMessage sha256 toFid (UInt8.ofNat m.ty.num) m.hash]
    | _ => []

/-- `TrieKey::for_onchain_event`, merkle_trie.rs:64-71. -/
def trieKeyOnchain (sha256 : Bytes → Bytes) (fid : Nat) (ty : Nat) (txHash : Bytes) (logIndex : Nat) : Bytes :=
  trieKeyFid sha256 fid ++ [UInt8.ofNat ty] ++ txHash ++ be 4 logIndex

/-- `TrieKey::for_fname`, merkle_trie.rs:74-87. -/
def trieKeyFname (sha256 : Bytes → Bytes) (fid : Nat) (name : Bytes) : Bytes :=
  trieKeyFid sha256 fid ++ [fnameMessageType] ++ name ++ List.replicate (usernameMaxLength - name.length) 0

/-- `DecodedTrieKey`, merkle_trie.rs:20-26. -/
structure DecodedTrieKey where
  virtualShard : UInt8
  fid : Nat
  onchainType : Option UInt8
  messageType : Option UInt8
  rest : Bytes
  deriving DecidableEq, Repr

/-- `TrieKey::decode`, merkle_trie.rs:108-135. -/
def decodeTrieKey (key : Bytes) : Except TrieErr DecodedTrieKey :=
  if key.length < uncompacted then .error .keyLengthTooShort
  else
    match key with
    | shard :: rest =>
      match rest.drop 4 with
      | ty :: tail =>
        .ok { virtualShard := shard, fid := fromBe (rest.take 4),
              onchainType := if ty < 8 then some ty else none,
              messageType := if ty < 8 then none else some (ty >>> (3 : UInt8)), rest := tail }
      | [] => .error .panic
    | [] => .error .panic

/-- The body of a hub event, /repo/proto/definitions/hub_event.proto, cut to what decides its trie keys. -/
inductive TrieEvent where
  | merge (message : Option Msg) (deleted : List Msg)
  | onchain (event : Option (Nat × Nat × Bytes × Nat))
  | prune (message : Option Msg)
  | revoke (message : Option Msg)
  | username (message deletedMessage : Option Msg) (fname deletedFname : Option (Nat × Bytes))
  | noTrie
  deriving DecidableEq

/-- `TrieKey::for_hub_event`, merkle_trie.rs:138-208: the keys to insert and the keys to delete.  For name proofs
only those of the fname type are given here. -/
def trieKeysForEvent (sha256 : Bytes → Bytes) : TrieEvent → List Bytes × List Bytes
  | .merge m deleted => (m.toList.flatMap (trieKeysForMessage sha256), deleted.flatMap (trieKeysForMessage sha256))
  | .onchain e => (e.toList.map (fun (fid, ty, tx, log) => trieKeyOnchain sha256 fid ty tx log), [])
  | .prune m => ([], m.toList.flatMap (trieKeysForMessage sha256))
  | .revoke m => ([], m.toList.flatMap (trieKeysForMessage sha256))
  | .username m d p dp =>
    (m.toList.flatMap (trieKeysForMessage sha256) ++
        (p.toList.filter (fun x => x.1 != 0)).map (fun x => trieKeyFname sha256 x.1 x.2),
      d.toList.flatMap (trieKeysForMessage sha256) ++ dp.toList.map (fun x => trieKeyFname sha256 x.1 x.2))
  | .noTrie => ([], [])

end Verif
