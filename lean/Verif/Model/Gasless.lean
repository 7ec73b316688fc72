import Verif.Model.Keys
import Verif.Model.MessageType
/-!
Gasless (off-chain) signer keys: nonces, records, owners, counters, sliding expiry and scopes.
Models /repo/src/storage/store/account/{key_nonce_store,key_last_used_at_store,key_add_store,
gasless_key_merge,active_key}.rs and the body checks of /repo/src/core/validations/key.rs.

Simplifications: signature recovery and the ABI decoding of the key request are functions of the
environment (`KeyEnv`), as are the custody address and the on-chain signer lookups, which read rows of
the same database that key messages never write.  A record row holds the decoded record.
-/
namespace Verif

/-- `KeyAddBody` with the envelope fields the merge reads: message.proto `KeyAddBody`, `MessageData`
and `Message`. -/
structure KeyAddMsg where
  fid : Nat
  timestamp : UInt32
  key : Bytes
  keyType : Nat
  scopes : List Int
  ttl : UInt32
  nonce : UInt32
  deadline : UInt32
  metadataType : Nat
  metadata : Bytes
  custodySignature : Bytes
  deriving DecidableEq, Repr

/-- `KeyRemoveBody` with its envelope fields. -/
structure KeyRemoveMsg where
  fid : Nat
  timestamp : UInt32
  signer : Bytes
  key : Bytes
  signatureType : Nat
  signature : Bytes
  nonce : UInt32
  deadline : UInt32
  deriving DecidableEq, Repr

/-- `GaslessKeyRecord`, /repo/src/storage/store/account/key_add_store.rs:96-101.  The embedded message
is always present: only `merge_key_add` writes records. -/
structure KeyRecord where
  message : KeyAddMsg
  requestFid : Nat
  deriving DecidableEq, Repr

/-- A database value of the gasless tables: raw bytes or an encoded record. -/
inductive GVal where
  | raw (b : Bytes)
  | record (r : KeyRecord)
  deriving DecidableEq, Repr

/-- `VerifiedSignedKeyRequest`, /repo/src/core/validations/key.rs:258-262. -/
structure VerifiedRequest where
  requestFid : Nat
  requestSigner : Bytes
  deriving DecidableEq, Repr

/-- What the merge asks of cryptography and of the on-chain tables.
* `metadata type metadata key now`: `verify_signed_key_request_metadata`, core/validations/key.rs:305-348.
* `recoverAdd`, `recoverRemove`: EIP-712 recovery, key.rs:205-224, over the whole payload.
* `custody fid`: the `to` address of `get_id_register_event_by_fid`, onchain_event_store.rs:1217-1223.
* `onchainSigner fid key`: `get_active_signer` is `Some`, onchain_event_store.rs:1260-1282. -/
structure KeyEnv where
  metadata : Nat → Bytes → Bytes → UInt32 → Option VerifiedRequest
  recoverAdd : KeyAddMsg → Option Bytes
  recoverRemove : KeyRemoveMsg → Option Bytes
  custody : Nat → Option Bytes
  onchainSigner : Nat → Bytes → Bool

/-! ### Static body checks -/

/-- `MAX_KEY_TTL_SECONDS`, /repo/src/core/validations/key.rs:48: 90 days. -/
def maxKeyTtl : Nat := 90 * 24 * 60 * 60

/-- `MAX_GASLESS_KEYS_PER_FID`, key.rs:54. -/
def maxGaslessKeys : Nat := 1000

/-- `MAX_KEY_ADD_SCOPES`, key.rs:67. -/
def maxKeyAddScopes : Nat := 16

/-- `MessageType::try_from(i32)`: generated by prost from message.proto:69-93. -/
def MessageType.ofInt (n : Int) : Option MessageType :=
  if n = 0 then some .none else if n = 1 then some .castAdd else if n = 2 then some .castRemove
  else if n = 3 then some .reactionAdd else if n = 4 then some .reactionRemove
  else if n = 5 then some .linkAdd else if n = 6 then some .linkRemove
  else if n = 7 then some .verificationAdd else if n = 8 then some .verificationRemove
  else if n = 11 then some .userDataAdd else if n = 12 then some .usernameProof
  else if n = 13 then some .frameAction else if n = 14 then some .linkCompactState
  else if n = 15 then some .lendStorage else if n = 16 then some .keyAdd
  else if n = 17 then some .keyRemove else if n = 18 then some .channelUpdate
  else if n = 19 then some .channelMember else if n = 20 then some .channelPin
  else if n = 21 then some .channelModerate else .none

/-- The admissible arm of `validate_key_add_scopes`, key.rs:379-403. -/
def scopeAdmissible (scope : Int) : Bool :=
  match MessageType.ofInt scope with
  | some .castAdd | some .castRemove | some .reactionAdd | some .reactionRemove | some .linkAdd
  | some .linkRemove | some .linkCompactState | some .verificationAdd | some .verificationRemove
  | some .userDataAdd | some .usernameProof | some .frameAction | some .lendStorage => true
  | some .none | some .keyAdd | some .keyRemove | some .channelUpdate | some .channelMember
  | some .channelPin | some .channelModerate => false
  | none => false

/-- `validate_key_add_scopes`, key.rs:366-408. -/
def validateKeyAddScopes (scopes : List Int) : Bool :=
  !scopes.isEmpty && decide (scopes.length ≤ maxKeyAddScopes) && scopes.all scopeAdmissible

/-- `validate_key_add_body`, key.rs:410-431. -/
def validateKeyAddBody (m : KeyAddMsg) : Bool :=
  m.key.length == 32 && m.keyType == 1 && m.deadline != 0 &&
  !(m.ttl.toNat == 0 || decide (m.ttl.toNat > maxKeyTtl)) && m.metadataType == 1 &&
  !m.metadata.isEmpty && validateKeyAddScopes m.scopes

/-- `validate_key_remove_body`, key.rs:433-444. -/
def validateKeyRemoveBody (m : KeyRemoveMsg) : Bool :=
  m.key.length == 32 && (m.signatureType == 1 || m.signatureType == 2) && m.deadline != 0

/-! ### Nonces: /repo/src/storage/store/account/key_nonce_store.rs -/

/-- `get_nonce`, key_nonce_store.rs:54-77. -/
def getNonce (db : Db GVal) (t : Txn GVal) (key : Bytes) : Except HubErr (Option Nat) :=
  match getFromDbOrTxn db t key with
  | none => .ok none
  | some (.raw b) => if b.length ≠ 4 then .error .internal else .ok (some (fromBe b))
  | some (.record _) => .error .internal

/-- `check_and_set_nonce`, key_nonce_store.rs:95-113. -/
def checkAndSetNonce (db : Db GVal) (t : Txn GVal) (key : Bytes) (nonce : UInt32) :
    Except HubErr (Txn GVal) :=
  match getNonce db t key with
  | .error e => .error e
  | .ok stored =>
    if nonce.toNat ≤ stored.getD 0 then .error .conflict
    else .ok (t.stagePut key (.raw (be 4 nonce.toNat)))

/-- `make_user_nonce_key`, key_nonce_store.rs:38-48. -/
def userNonceKey (fid : Nat) : Bytes := RowKey.bytes (.keyUserNonce fid)
/-- `make_app_nonce_key`, key_nonce_store.rs:50-52. -/
def appNonceKey (fid : Nat) : Bytes := RowKey.bytes (.keyAppNonce fid)

/-! ### Records, owners, counters: /repo/src/storage/store/account/key_add_store.rs -/

/-- `make_gasless_key_by_fid_key`, key_add_store.rs:125-133. -/
def keyByFidKey (fid : Nat) (pk : Bytes) : Except HubErr Bytes :=
  if pk.length ≠ 32 then .error .validation else .ok (RowKey.bytes (.keyByFid fid pk))

/-- `make_gasless_key_by_public_key_key`, key_add_store.rs:182-190. -/
def keyByPublicKeyKey (pk : Bytes) : Except HubErr Bytes :=
  if pk.length ≠ 32 then .error .validation else .ok (RowKey.bytes (.keyByPublicKey pk))

/-- `make_gasless_key_count_by_fid_key`, key_add_store.rs:258-264. -/
def keyCountKey (fid : Nat) : Bytes := RowKey.bytes (.keyCount fid)

/-- `make_last_used_at_key`, key_last_used_at_store.rs:59-67. -/
def lastUsedKey (fid : Nat) (pk : Bytes) : Except HubErr Bytes :=
  if pk.length ≠ 32 then .error .validation else .ok (RowKey.bytes (.keyLastUsedAt fid pk))

/-- `get_gasless_key_record`, key_add_store.rs:135-151. -/
def getKeyRecord (db : Db GVal) (t : Txn GVal) (fid : Nat) (pk : Bytes) : Except HubErr (Option KeyRecord) :=
  match keyByFidKey fid pk with
  | .error e => .error e
  | .ok k =>
    match getFromDbOrTxn db t k with
    | none => .ok none
    | some (.record r) => .ok (some r)
    | some (.raw _) => .error .internal

/-- `put_gasless_key_record`, key_add_store.rs:153-164. -/
def putKeyRecord (t : Txn GVal) (fid : Nat) (pk : Bytes) (r : KeyRecord) : Except HubErr (Txn GVal) :=
  match keyByFidKey fid pk with
  | .error e => .error e
  | .ok k => .ok (t.stagePut k (.record r))

/-- `delete_gasless_key_record`, key_add_store.rs:166-176. -/
def deleteKeyRecord (t : Txn GVal) (fid : Nat) (pk : Bytes) : Except HubErr (Txn GVal) :=
  match keyByFidKey fid pk with
  | .error e => .error e
  | .ok k => .ok (t.stageDel k)

/-- `get_gasless_key_owner_fid`, key_add_store.rs:197-218. -/
def getKeyOwner (db : Db GVal) (t : Txn GVal) (pk : Bytes) : Except HubErr (Option Nat) :=
  match keyByPublicKeyKey pk with
  | .error e => .error e
  | .ok k =>
    match getFromDbOrTxn db t k with
    | none => .ok none
    | some (.raw b) => if b.length ≠ 4 then .error .internal else .ok (some (fromBe b))
    | some (.record _) => .error .internal

/-- `put_gasless_key_owner`, key_add_store.rs:220-230. -/
def putKeyOwner (t : Txn GVal) (pk : Bytes) (fid : Nat) : Except HubErr (Txn GVal) :=
  match keyByPublicKeyKey pk with
  | .error e => .error e
  | .ok k => .ok (t.stagePut k (.raw (makeFidKey fid)))

/-- `delete_gasless_key_owner`, key_add_store.rs:232-241. -/
def deleteKeyOwner (t : Txn GVal) (pk : Bytes) : Except HubErr (Txn GVal) :=
  match keyByPublicKeyKey pk with
  | .error e => .error e
  | .ok k => .ok (t.stageDel k)

/-- `get_gasless_key_count`, key_add_store.rs:269-293. -/
def getKeyCount (db : Db GVal) (t : Txn GVal) (fid : Nat) : Except HubErr Nat :=
  match getFromDbOrTxn db t (keyCountKey fid) with
  | none => .ok 0
  | some (.raw b) => if b.length ≠ 4 then .error .internal else .ok (fromBe b)
  | some (.record _) => .error .internal

/-- `increment_gasless_key_count`, key_add_store.rs:298-308: saturating at `u32::MAX`. -/
def incrementKeyCount (db : Db GVal) (t : Txn GVal) (fid : Nat) : Except HubErr (Txn GVal) :=
  match getKeyCount db t fid with
  | .error e => .error e
  | .ok c => .ok (t.stagePut (keyCountKey fid) (.raw (be 4 (min (c + 1) (2 ^ 32 - 1)))))

/-- `decrement_gasless_key_count`, key_add_store.rs:314-328. -/
def decrementKeyCount (db : Db GVal) (t : Txn GVal) (fid : Nat) : Except HubErr (Txn GVal) :=
  match getKeyCount db t fid with
  | .error e => .error e
  | .ok c =>
    if c - 1 = 0 then .ok (t.stageDel (keyCountKey fid))
    else .ok (t.stagePut (keyCountKey fid) (.raw (be 4 (c - 1))))

/-- `make_gasless_key_by_fid_prefix`, key_add_store.rs:112-118. -/
def keyByFidPrefix (fid : Nat) : Bytes := 23 :: 105 :: makeFidKey fid

/-- The callback of `list_gasless_keys_by_fid`, key_add_store.rs:372-396. -/
def keyListStep (limit : Nat) (s : List (Bytes × KeyRecord) × Bytes) (k : Bytes) (v : GVal) :
    Except HubErr ((List (Bytes × KeyRecord) × Bytes) × Bool) :=
  match v with
  | .raw _ => .error .internal
  | .record r =>
    if k.length < 38 then .error .internal
    else if (s.1 ++ [((k.drop 6).take 32, r)]).length ≥ limit then
      .ok ((s.1 ++ [((k.drop 6).take 32, r)], k), true)
    else .ok ((s.1 ++ [((k.drop 6).take 32, r)], s.2), false)

/-- `list_gasless_keys_by_fid`, key_add_store.rs:356-407: pages of (public key, record), read from the
committed database only. -/
def listGaslessKeys (db : Db GVal) (fid : Nat) (po : PageOptions) :
    Except HubErr (MessagesPage (Bytes × KeyRecord)) :=
  match forEachPaged db (some (keyByFidPrefix fid)) (some (incrementVec (keyByFidPrefix fid))) po
      (keyListStep (po.pageSize.getD pageSizeMax)) ([], []) with
  | .error e => .error e
  | .ok ((recs, lastKey), _) =>
    .ok { messages := recs, nextPageToken := if lastKey.isEmpty then none else some lastKey }

/-! ### Sliding expiry: /repo/src/storage/store/account/key_last_used_at_store.rs -/

/-- `SLIDING_TTL_THROTTLE_SECONDS`, key_last_used_at_store.rs:43. -/
def ttlThrottle : Nat := 300

/-- `get_last_used_at`, key_last_used_at_store.rs:69-94. -/
def getLastUsed (db : Db GVal) (t : Txn GVal) (fid : Nat) (pk : Bytes) : Except HubErr (Option Nat) :=
  match lastUsedKey fid pk with
  | .error e => .error e
  | .ok k =>
    match getFromDbOrTxn db t k with
    | none => .ok none
    | some (.raw b) => if b.length ≠ 4 then .error .internal else .ok (some (fromBe b))
    | some (.record _) => .error .internal

/-- `init_last_used_at`, key_last_used_at_store.rs:102-113. -/
def initLastUsed (t : Txn GVal) (fid : Nat) (pk : Bytes) (ts : UInt32) : Except HubErr (Txn GVal) :=
  match lastUsedKey fid pk with
  | .error e => .error e
  | .ok k => .ok (t.stagePut k (.raw (be 4 ts.toNat)))

/-- `delete_last_used_at`, key_last_used_at_store.rs:117-127. -/
def deleteLastUsed (t : Txn GVal) (fid : Nat) (pk : Bytes) : Except HubErr (Txn GVal) :=
  match lastUsedKey fid pk with
  | .error e => .error e
  | .ok k => .ok (t.stageDel k)

/-- `check_and_bump_last_used_at`, key_last_used_at_store.rs:161-226.  The sums are `u64` sums of
`u32` values and cannot wrap. -/
def checkAndBump (db : Db GVal) (t : Txn GVal) (fid : Nat) (pk : Bytes) (ttl msgTs : UInt32)
    (blockTs : Nat) : Except HubErr (Txn GVal) :=
  match lastUsedKey fid pk with
  | .error e => .error e
  | .ok k =>
    match getFromDbOrTxn db t k with
    | none => .error .internal
    | some (.record _) => .error .internal
    | some (.raw b) =>
      if b.length ≠ 4 then .error .internal
      else if fromBe b + ttl.toNat < blockTs then .error .validation
      else if msgTs.toNat > fromBe b + ttlThrottle then .ok (t.stagePut k (.raw (be 4 msgTs.toNat)))
      else .ok t

/-! ### Active keys and scopes: /repo/src/storage/store/account/active_key.rs -/

/-- `ActiveKey`, active_key.rs:51-54. -/
inductive ActiveKey where
  | onChain
  | gasless (scopesMask : Nat) (ttl : UInt32)
  deriving DecidableEq, Repr

/-- `compute_scopes_mask`, active_key.rs:78-89.  The `u64` mask is a `Nat` below `2^64`. -/
def computeScopesMask (scopes : List Int) : Nat :=
  scopes.foldl (fun (mask : Nat) (s : Int) => if 0 ≤ s ∧ s < 64 then mask ||| 1 <<< s.toNat else mask) 0

/-- `message_type_bit`, active_key.rs:93-104. -/
def messageTypeBit (ty : MessageType) : Nat := if ty.num < 64 then 1 <<< ty.num else 0

/-- `ActiveKey::admits`, active_key.rs:60-68. -/
def ActiveKey.admits (k : ActiveKey) (ty : MessageType) : Bool :=
  match k with
  | .onChain => true
  | .gasless mask _ => (mask &&& messageTypeBit ty) != 0

/-- `get_active_key`, active_key.rs:111-142. -/
def getActiveKey (env : KeyEnv) (db : Db GVal) (t : Txn GVal) (fid : Nat) (signer : Bytes) :
    Except HubErr (Option ActiveKey) :=
  if env.onchainSigner fid signer then .ok (some .onChain)
  else
    match getKeyRecord db t fid signer with
    | .error e => .error e
    | .ok none => .ok none
    | .ok (some r) => .ok (some (.gasless (computeScopesMask r.message.scopes) r.message.ttl))

/-- The signer part of `validate_user_message`, /repo/src/storage/store/engine.rs:2097-2135 and
2199-2222, and /repo/src/storage/store/block_engine.rs:967-998 and 1185-1201, for a message that is not
a key message: find the key, check the scope, then (after the body checks) expiry and bump.  The read
view equals the batch because `GaslessSigners` implies `DependentMessagesInBulkSubmit` (C26).  A zero
time-to-live skips expiry. -/
def useKey (env : KeyEnv) (db : Db GVal) (t : Txn GVal) (fid : Nat) (signer : Bytes) (ty : MessageType)
    (msgTs : UInt32) (blockTs : Nat) : Except HubErr (Txn GVal) :=
  match getActiveKey env db t fid signer with
  | .error e => .error e
  | .ok none => .error .validation
  | .ok (some k) =>
    if k.admits ty then
      match k with
      | .onChain => .ok t
      | .gasless _ ttl => if ttl.toNat > 0 then checkAndBump db t fid signer ttl msgTs blockTs else .ok t
    else .error .validation

/-! ### Merging: /repo/src/storage/store/account/gasless_key_merge.rs -/

/-- The writes of an accepted key addition, gasless_key_merge.rs:220-246.  Like the Rust code, returns
the batch with the writes staged before the failing step. -/
def keyAddWrites (db : Db GVal) (t : Txn GVal) (m : KeyAddMsg) (requestFid : Nat) (first : Bool) :
    Except HubErr Unit × Txn GVal :=
  match putKeyRecord t m.fid m.key { message := m, requestFid } with
  | .error e => (.error e, t)
  | .ok t1 =>
    match putKeyOwner t1 m.key m.fid with
    | .error e => (.error e, t1)
    | .ok t2 =>
      match initLastUsed t2 m.fid m.key m.timestamp with
      | .error e => (.error e, t2)
      | .ok t3 =>
        if first then
          match incrementKeyCount db t3 m.fid with
          | .error e => (.error e, t3)
          | .ok t4 => (.ok (), t4)
        else (.ok (), t3)

/-- Steps of `merge_key_add` before the nonce check, gasless_key_merge.rs:76-211: authorisation and
conflicts.  Returns the requesting fid and the prior record. -/
def keyAddChecks (env : KeyEnv) (db : Db GVal) (t : Txn GVal) (m : KeyAddMsg) (isReplay : Bool) :
    Except HubErr (Nat × Option KeyRecord) :=
  match env.metadata m.metadataType m.metadata m.key m.timestamp with
  | none => .error .validation
  | some v =>
    if !isReplay && env.custody v.requestFid != some v.requestSigner then .error .validation
    else
      match env.recoverAdd m with
      | none => .error .validation
      | some a =>
        if env.custody m.fid ≠ some a then .error .validation
        else if env.onchainSigner m.fid m.key then .error .validation
        else
          match getKeyOwner db t m.key with
          | .error e => .error e
          | .ok none =>
            match getKeyCount db t m.fid with
            | .error e => .error e
            | .ok c => if c ≥ maxGaslessKeys then .error .validation else .ok (v.requestFid, none)
          | .ok (some o) =>
            if o ≠ m.fid then .error .validation
            else
              match getKeyRecord db t m.fid m.key with
              | .error e => .error e
              | .ok none => .error .internal
              | .ok (some r) =>
                if r.requestFid ≠ v.requestFid then .error .validation
                else .ok (v.requestFid, some r)

/-- `merge_key_add`, gasless_key_merge.rs:76-270.  Returns the message replaced (the event's
`deleted_messages`) and the batch, which may hold staged writes even on an error. -/
def mergeKeyAdd (env : KeyEnv) (db : Db GVal) (t : Txn GVal) (m : KeyAddMsg) (isReplay : Bool) :
    Except HubErr (Option KeyAddMsg) × Txn GVal :=
  match keyAddChecks env db t m isReplay with
  | .error e => (.error e, t)
  | .ok (rf, prior) =>
    match checkAndSetNonce db t (userNonceKey m.fid) m.nonce with
    | .error e => (.error e, t)
    | .ok t1 =>
      match keyAddWrites db t1 m rf prior.isNone with
      | (.error e, t2) => (.error e, t2)
      | (.ok (), t2) => (.ok (prior.map (·.message)), t2)

/-- The writes of an accepted key removal, gasless_key_merge.rs:374-382. -/
def keyRemoveWrites (db : Db GVal) (t : Txn GVal) (fid : Nat) (key : Bytes) :
    Except HubErr Unit × Txn GVal :=
  match deleteKeyRecord t fid key with
  | .error e => (.error e, t)
  | .ok t1 =>
    match deleteKeyOwner t1 key with
    | .error e => (.error e, t1)
    | .ok t2 =>
      match deleteLastUsed t2 fid key with
      | .error e => (.error e, t2)
      | .ok t3 =>
        match decrementKeyCount db t3 fid with
        | .error e => (.error e, t3)
        | .ok t4 => (.ok (), t4)

/-- The authorisation and nonce part of `merge_key_remove`, gasless_key_merge.rs:334-367. -/
def keyRemoveAuth (env : KeyEnv) (db : Db GVal) (t : Txn GVal) (m : KeyRemoveMsg) (r : KeyRecord) :
    Except HubErr (Txn GVal) :=
  if m.signatureType = 1 then
    match env.recoverRemove m with
    | none => .error .validation
    | some a =>
      if env.custody m.fid ≠ some a then .error .validation
      else checkAndSetNonce db t (userNonceKey m.fid) m.nonce
  else if m.signatureType = 2 then
    if m.signer ≠ m.key then .error .validation
    else checkAndSetNonce db t (appNonceKey r.requestFid) m.nonce
  else .error .validation

/-- `merge_key_remove`, gasless_key_merge.rs:305-392. -/
def mergeKeyRemove (env : KeyEnv) (db : Db GVal) (t : Txn GVal) (m : KeyRemoveMsg) :
    Except HubErr KeyAddMsg × Txn GVal :=
  match getKeyRecord db t m.fid m.key with
  | .error e => (.error e, t)
  | .ok none => (.error .validation, t)
  | .ok (some r) =>
    match keyRemoveAuth env db t m r with
    | .error e => (.error e, t)
    | .ok t1 =>
      match keyRemoveWrites db t1 m.fid m.key with
      | (.error e, t2) => (.error e, t2)
      | (.ok (), t2) => (.ok r.message, t2)

/-! ### Histories -/

/-- What can happen to the gasless tables.  The body checks run before every merge
(`validate_message`, /repo/src/core/validations/message.rs:98-270).  Every step carries its own
environment, so on-chain state may change arbitrarily between steps. -/
inductive KeyOp where
  | add (env : KeyEnv) (m : KeyAddMsg) (isReplay : Bool)
  | remove (env : KeyEnv) (m : KeyRemoveMsg)
  | use (env : KeyEnv) (fid : Nat) (signer : Bytes) (ty : MessageType) (msgTs : UInt32) (blockTs : Nat)
  /-- The block is committed: `RocksDB::commit`. -/
  | commit
  /-- The batch is dropped (a simulation, or a proposal that was not decided). -/
  | abort

/-- The database and the pending batch. -/
structure KeyState where
  db : Db GVal
  txn : Txn GVal

/-- Whether a step is accepted, and the new state.  As in the engines
(/repo/src/storage/store/block_engine.rs:1544-1552), a rejected message keeps whatever the merge had
staged. -/
def KeyOp.exec (s : KeyState) : KeyOp → Bool × KeyState
  | .add env m isReplay =>
    if validateKeyAddBody m then
      match mergeKeyAdd env s.db s.txn m isReplay with
      | (.ok _, t) => (true, { s with txn := t })
      | (.error _, t) => (false, { s with txn := t })
    else (false, s)
  | .remove env m =>
    if validateKeyRemoveBody m then
      match mergeKeyRemove env s.db s.txn m with
      | (.ok _, t) => (true, { s with txn := t })
      | (.error _, t) => (false, { s with txn := t })
    else (false, s)
  | .use env fid signer ty msgTs blockTs =>
    match useKey env s.db s.txn fid signer ty msgTs blockTs with
    | .ok t => (true, { s with txn := t })
    | .error _ => (false, s)
  | .commit => (true, { db := s.db.commit s.txn, txn := OMap.empty })
  | .abort => (true, { s with txn := OMap.empty })

/-- Run a list of steps. -/
def runKeyOps (s : KeyState) (ops : List KeyOp) : KeyState := ops.foldl (fun s o => (o.exec s).2) s

end Verif
