import Verif.Model.KV
import Verif.Model.Keys
/-!
On-chain events and their indices: /repo/src/storage/store/account/onchain_event_store.rs (below: onchain).
Event encoding is left out: rows hold the events themselves.  Strings are byte lists.
-/
namespace Verif

/-- `SignerEventType`, /repo/proto/definitions/onchain_event.proto:75-80; unknown numbers read as `none`. -/
inductive SignerEventType where
  | none | add | remove | adminReset
  deriving DecidableEq, Repr

/-- `IdRegisterEventType`, onchain_event.proto:94-99. -/
inductive IdRegisterType where
  | none | register | transfer | changeRecovery
  deriving DecidableEq, Repr

/-- `ChannelRegisterEventType`, onchain_event.proto:34-39. -/
inductive ChannelRegisterType where
  | none | register | renew | transfer
  deriving DecidableEq, Repr

/-- The bodies of on-chain events, onchain_event.proto.  Fields no modelled function reads are left out. -/
inductive OBody where
  | none
  | signer (key : Bytes) (keyType : Nat) (ty : SignerEventType)
  | signerMigrated
  | idRegister (to : Bytes) (ty : IdRegisterType)
  | storageRent (units : UInt32)
  | tierPurchase (tier : Int) (days : Nat)
  | channelRegister (ty : ChannelRegisterType) (key label owner : Bytes) (expiry : Nat)
  deriving DecidableEq, Repr

/-- `OnChainEvent`, onchain_event.proto:8-32: `type` number (unknown ones read as 0), user, position on the
chain, time, body.  Nothing ties the type to the body. -/
structure OEvent where
  ty : Nat
  fid : Nat
  block : Nat
  tx : Nat
  log : Nat
  ts : Nat
  body : OBody
  deriving DecidableEq, Repr

/-- `ChannelOwner`, onchain 75-89. -/
structure ChanOwner where
  key : Bytes
  owner : Bytes
  expiry : Nat
  block : Nat
  tx : Nat
  log : Nat
  deriving DecidableEq, Repr

/-- Values of the rows written here. -/
inductive OVal where
  | event (e : OEvent)
  | owner (o : ChanOwner)
  | raw (b : Bytes)
  deriving DecidableEq, Repr

/-- `make_onchain_event_type_prefix`, onchain 100-106. -/
def oTypePrefix (ty : Nat) : Bytes := [12, 1, UInt8.ofNat ty]

/-- `make_onchain_event_primary_key`, onchain 108-115. -/
def oPrimaryKey (e : OEvent) : Bytes :=
  oTypePrefix e.ty ++ makeFidKey e.fid ++ be 4 e.block ++ be 4 e.log

/-- `make_id_register_by_fid_key`, onchain 142-149. -/
def idRegisterKey (fid : Nat) : Bytes := 12 :: 52 :: makeFidKey fid

/-- `make_signer_onchain_event_by_signer_key`, onchain 151-159. -/
def signerKey (fid : Nat) (key : Bytes) : Bytes := 12 :: 51 :: (makeFidKey fid ++ key)

/-- `make_channel_register_by_channel_key`, onchain 161-168. -/
def chanOwnerKey (key : Bytes) : Bytes := 12 :: 55 :: key

/-- `make_channel_register_channel_key_by_label_key`, onchain 170-177. -/
def chanLabelKey (label : Bytes) : Bytes := 12 :: 56 :: label

/-- `make_channel_register_by_owner_address_key`, onchain 179-192. -/
def chanByOwnerKey (owner key : Bytes) : Bytes := 12 :: 57 :: (owner ++ key)

/-- `get_event_by_secondary_key`, onchain 777-797.  A row that is not of the right kind fails to decode. -/
def eventBySecondaryKey (db : Db OVal) (t : Txn OVal) (key : Bytes) : Except HubErr (Option OEvent) :=
  match getFromDbOrTxn db t key with
  | none => .ok none
  | some (.raw pk) => match getFromDbOrTxn db t pk with
    | none => .ok none
    | some (.event e) => .ok (some e)
    | some _ => .error .decode
  | some _ => .error .decode

/-- The events of a list of rows; a row of another kind fails to decode. -/
def decodeEvents : List (Bytes × OVal) → Except HubErr (List OEvent)
  | [] => .ok []
  | (_, .event e) :: l => match decodeEvents l with
    | .error e => .error e
    | .ok es => .ok (e :: es)
  | _ :: _ => .error .decode

/-- `OnchainEventStore::get_onchain_events` for one user, onchain 1121-1154: all events of a type, in key order.
The loop over pages of a thousand is one scan here. -/
def onchainEvents (db : Db OVal) (ty fid : Nat) : Except HubErr (List OEvent) :=
  let p := oTypePrefix ty ++ makeFidKey fid
  decodeEvents (scanRows db p (incrementVec p) false)

/-- `build_secondary_indices_for_id_register`, onchain 478-500. -/
def indexIdRegister (db : Db OVal) (t : Txn OVal) (e : OEvent) (ty : IdRegisterType) : Except HubErr (Txn OVal) :=
  if ty = .changeRecovery then .ok t
  else match eventBySecondaryKey db t (idRegisterKey e.fid) with
    | .error x => .error x
    | .ok (some old) => if old.block > e.block then .ok t else .ok (t.stagePut (idRegisterKey e.fid) (.raw (oPrimaryKey e)))
    | .ok none => .ok (t.stagePut (idRegisterKey e.fid) (.raw (oPrimaryKey e)))

/-- Is the event an add of the key?  onchain 545-557. -/
def isAddOf (key : Bytes) (e : OEvent) : Bool :=
  match e.body with
  | .signer k _ .add => decide (k = key)
  | _ => false

/-- The writes of `build_secondary_indices_for_signer`, onchain 528-575.  An admin reset looks for an add of the
key among the committed events of the user (the batch is not searched) and indexes the first one. -/
def writeSigner (db : Db OVal) (t : Txn OVal) (e : OEvent) (key : Bytes) (ty : SignerEventType) : Except HubErr (Txn OVal) :=
  if ty = .adminReset then match onchainEvents db 1 e.fid with
    | .error x => .error x
    | .ok es => match es.find? (isAddOf key) with
      | some a => .ok (t.stagePut (signerKey e.fid key) (.raw (oPrimaryKey a)))
      | none => .ok t
  else .ok (t.stagePut (signerKey e.fid key) (.raw (oPrimaryKey e)))

/-- `build_secondary_indices_for_signer`, onchain 502-576.  The guard at 515-522 reads the type of the incoming
event twice, so it compares `ty` with both `Remove` and `Add`. -/
def indexSigner (db : Db OVal) (t : Txn OVal) (e : OEvent) (key : Bytes) (ty : SignerEventType) : Except HubErr (Txn OVal) :=
  match eventBySecondaryKey db t (signerKey e.fid key) with
  | .error x => .error x
  | .ok (some old) =>
    if old.block > e.block then .ok t
    else if ty = .remove ∧ ty = .add then .ok t
    else writeSigner db t e key ty
  | .ok none => writeSigner db t e key ty

/-- `incoming_channel_event_is_older`, onchain 194-197: lexicographic comparison. -/
def olderThan (e : OEvent) (o : ChanOwner) : Bool :=
  decide (e.block < o.block ∨ (e.block = o.block ∧ (e.tx < o.tx ∨ (e.tx = o.tx ∧ e.log < o.log))))

/-- `read_channel_owner_by_channel_key`, onchain 279-295. -/
def readChanOwner (db : Db OVal) (t : Txn OVal) (key : Bytes) : Except HubErr (Option ChanOwner) :=
  match getFromDbOrTxn db t (chanOwnerKey key) with
  | none => .ok none
  | some (.owner o) => .ok (some o)
  | some _ => .error .decode

/-- `move_channel_owner_address_index`, onchain 229-242, with the address checks of
`put_/delete_channel_key_by_owner_address`, onchain 619-643. -/
def moveOwnerIndex (t : Txn OVal) (key : Bytes) (old : Option Bytes) (new : Bytes) : Except HubErr (Txn OVal) :=
  match old with
  | none => if new.length = 20 then .ok (t.stagePut (chanByOwnerKey new key) (.raw [1])) else .error .validation
  | some o =>
    if o = new then
      if new.length = 20 then .ok (t.stagePut (chanByOwnerKey new key) (.raw [1])) else .error .validation
    else if o.length = 20 then
      if new.length = 20 then .ok ((t.stageDel (chanByOwnerKey o key)).stagePut (chanByOwnerKey new key) (.raw [1]))
      else .error .validation
    else .error .validation

/-- `ChannelOwnerChange`, onchain 296-301: `true` for a registration, `false` for a transfer. -/
structure OwnerChange where
  key : Bytes
  owner : Bytes
  registered : Bool
  deriving DecidableEq, Repr

/-- `build_secondary_indices_for_channel_register`, onchain 303-453.  `keccak` is the hash function.  The label
index is written before the owner index, whose address checks cannot fail here. -/
def indexChannel (keccak : Bytes → Bytes) (db : Db OVal) (t : Txn OVal) (e : OEvent) (ty : ChannelRegisterType)
    (key label owner : Bytes) (expiry : Nat) : Except HubErr (Txn OVal × Option OwnerChange) :=
  if label.length ≠ 32 then .ok (t, none)
  else match ty with
    | .register =>
      if owner.length ≠ 20 ∨ keccak key ≠ label then .ok (t, none)
      else match readChanOwner db t key with
        | .error x => .error x
        | .ok old =>
          if old.any (olderThan e) then .ok (t, none)
          else match moveOwnerIndex (t.stagePut (chanLabelKey label) (.raw key)) key (old.map (·.owner)) owner with
            | .error x => .error x
            | .ok t' => .ok (t'.stagePut (chanOwnerKey key) (.owner ⟨key, owner, expiry, e.block, e.tx, e.log⟩),
                some ⟨key, owner, true⟩)
    | .renew =>
      if keccak key ≠ label then .ok (t, none)
      else match readChanOwner db t key with
        | .error x => .error x
        | .ok none => .ok (t, none)
        | .ok (some old) =>
          if olderThan e old then .ok (t, none)
          else .ok (t.stagePut (chanOwnerKey key)
            (.owner { old with expiry := expiry, block := e.block, tx := e.tx, log := e.log }), none)
    | .transfer =>
      if owner.length ≠ 20 then .ok (t, none)
      else match getFromDbOrTxn db t (chanLabelKey label) with
        | none => .ok (t, none)
        | some (.raw k) => match readChanOwner db t k with
          | .error x => .error x
          | .ok none => .ok (t, none)
          | .ok (some old) =>
            if olderThan e old then .ok (t, none)
            else match moveOwnerIndex t k (some old.owner) owner with
              | .error x => .error x
              | .ok t' => .ok (t'.stagePut (chanOwnerKey k)
                  (.owner { old with owner := owner, block := e.block, tx := e.tx, log := e.log }),
                some ⟨k, owner, false⟩)
        | some _ => .error .decode
    | .none => .ok (t, none)

/-- `fold_channel_register_replica`, onchain 460-476. -/
def foldChannelReplica (keccak : Bytes → Bytes) (db : Db OVal) (t : Txn OVal) (e : OEvent) :
    Except HubErr (Txn OVal × Option OwnerChange) :=
  match e.body with
  | .channelRegister ty key label owner expiry => indexChannel keccak db t e ty key label owner expiry
  | _ => .ok (t, none)

/-- `build_secondary_indices`, onchain 578-613. -/
def buildIndices (keccak : Bytes → Bytes) (db : Db OVal) (t : Txn OVal) (e : OEvent) : Except HubErr (Txn OVal) :=
  match e.body with
  | .idRegister _ ty => indexIdRegister db t e ty
  | .signer key _ ty => indexSigner db t e key ty
  | .channelRegister ty key label owner expiry => match indexChannel keccak db t e ty key label owner expiry with
    | .error x => .error x
    | .ok r => .ok r.1
  | _ => .ok t

/-- `merge_onchain_event`, onchain 117-133: the result and the batch.  A failing index leaves the event row
staged (index functions that fail stage nothing of their own in a consistent database). -/
def mergeOnchainEvent (keccak : Bytes → Bytes) (conflictFree : Bool) (db : Db OVal) (t : Txn OVal) (e : OEvent) :
    Except HubErr Unit × Txn OVal :=
  if !conflictFree && (getFromDbOrTxn db t (oPrimaryKey e)).isSome then (.error .duplicate, t)
  else
    let t1 := t.stagePut (oPrimaryKey e) (.event e)
    match buildIndices keccak db t1 e with
    | .error x => (.error x, t1)
    | .ok t2 => (.ok (), t2)

/-- `get_id_register_event_by_fid`, onchain 1217-1223. -/
def idRegisterEvent (db : Db OVal) (t : Txn OVal) (fid : Nat) : Except HubErr (Option OEvent) :=
  eventBySecondaryKey db t (idRegisterKey fid)

/-- `get_active_signer`, onchain 1260-1282: the indexed event if it is an add with the supported key type 1. -/
def activeSigner (db : Db OVal) (t : Txn OVal) (fid : Nat) (key : Bytes) : Except HubErr (Option OEvent) :=
  match eventBySecondaryKey db t (signerKey fid key) with
  | .error x => .error x
  | .ok none => .ok none
  | .ok (some e) => match e.body with
    | .signer _ 1 .add => .ok (some e)
    | _ => .ok none

/-- `get_channel_owner`, onchain 1229-1237. -/
def channelOwner (db : Db OVal) (t : Txn OVal) (key : Bytes) : Except HubErr (Option ChanOwner) := readChanOwner db t key

/-- `get_channel_key_by_label`, onchain 1242-1258. -/
def channelKeyByLabel (db : Db OVal) (t : Txn OVal) (label : Bytes) : Except HubErr (Option Bytes) :=
  match getFromDbOrTxn db t (chanLabelKey label) with
  | none => .ok none
  | some (.raw k) => .ok (some k)
  | some _ => .error .decode

/-- The rows of `get_channel_keys_by_owner_address`, onchain 645-700, over all pages. -/
def channelKeysByOwner (db : Db OVal) (owner : Bytes) : Except HubErr (List Bytes) :=
  if owner.length ≠ 20 then .error .validation
  else
    let p := 12 :: 57 :: owner
    .ok ((scanRows db p (incrementVec p) false).map (fun r => r.1.drop p.length))

/-- `u64` arithmetic of a release build. -/
def u64 (n : Nat) : Nat := n % 2 ^ 64

/-- One purchase of `tier_subscription_exires_at`, onchain 1309-1316. -/
def extendTier (expires : Nat) (p : Nat × Nat) : Nat := u64 (Nat.max p.1 expires + u64 (p.2 * 24 * 60 * 60))

/-- The purchases of a tier: time and days. -/
def tierPurchases (tier : Int) (es : List OEvent) : List (Nat × Nat) :=
  es.filterMap (fun e => match e.body with
    | .tierPurchase t d => if t = tier then some (e.ts, d) else none
    | _ => none)

/-- The loop goes on, onchain 1304-1308. -/
def notAfter (asOf : Option Nat) (p : Nat × Nat) : Bool :=
  match asOf with
  | some a => !decide (p.1 > a)
  | none => true

/-- `tier_subscription_exires_at`, onchain 1283-1321: purchases are taken in key order, up to the first one later
than `asOf`. -/
def tierExpiry (tier : Int) (es : List OEvent) (asOf : Option Nat) : Nat :=
  ((tierPurchases tier es).takeWhile (notAfter asOf)).foldl extendTier 0

/-- `tier_subscription_exires_at` on the database. -/
def tierExpiresAt (db : Db OVal) (tier : Int) (fid : Nat) (asOf : Option Nat) : Except HubErr Nat :=
  match onchainEvents db 5 fid with
  | .error x => .error x
  | .ok es => .ok (tierExpiry tier es asOf)

/-- `is_tier_subscription_active_at`, onchain 1323-1331. -/
def tierActiveAt (db : Db OVal) (tier : Int) (fid at_ : Nat) : Except HubErr Bool :=
  match tierExpiresAt db tier fid (some at_) with
  | .error x => .error x
  | .ok x => .ok (decide (x ≥ at_))

/-- An on-chain event store over time: the database, the open batch, and the events accepted so far (`log`) and at the
last commit (`saved`).  The last two are bookkeeping for stating properties; no step reads them. -/
structure ChainNode where
  db : Db OVal := OMap.empty
  pend : Txn OVal := OMap.empty
  log : List OEvent := []
  saved : List OEvent := []

/-- Merge an event into the open batch, commit the batch, or drop it. -/
inductive ChainOp where
  | merge (e : OEvent)
  | commit
  | drop
  deriving DecidableEq, Repr

/-- One step.  The engines keep the batch when a merge fails and go on,
/repo/src/storage/store/block_engine.rs:1449-1461 and /repo/src/storage/store/engine.rs:1289-1315; the event ids they hand out are left out. -/
def ChainNode.step (keccak : Bytes → Bytes) (n : ChainNode) : ChainOp → ChainNode
  | .merge e => match mergeOnchainEvent keccak false n.db n.pend e with
    | (.ok (), t) => { n with pend := t, log := n.log ++ [e] }
    | (.error _, t) => { n with pend := t }
  | .commit => { n with db := n.db.commit n.pend, pend := OMap.empty, saved := n.log }
  | .drop => { n with pend := OMap.empty, log := n.saved }

/-- A run from the empty store. -/
def ChainNode.run (keccak : Bytes → Bytes) (ops : List ChainOp) : ChainNode := ops.foldl (ChainNode.step keccak) {}

end Verif
