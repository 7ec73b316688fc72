import Verif.Model.KV
import Verif.Model.Keys
import Verif.Model.Event
import Verif.Model.MessageType
/-!
The message stores: merge, revoke, prune, compaction and point reads of
/repo/src/storage/store/account/store.rs, generic in a `StoreDef`.

Simplifications: a message is its decoded content (the codec is C50's subject), its data and body are
present, and its signature scheme is Ed25519 (checked on admission).  `StoreOptions` has its default
value (`conflict_free = false`, `save_hub_events = true`); the other values are used by tests and by
the replication client (`Replication`).
-/
namespace Verif

/-- `StorageUnitType`, /repo/proto/definitions/message.proto:231-235. -/
inductive UnitType where
  | legacy | y2024 | y2025
  deriving DecidableEq, Repr

/-- The body of a message, /repo/proto/definitions/message.proto (oneof `body` of `MessageData`), cut
to the fields the stores read. -/
inductive Body where
  | castAdd (parent : Option Target) (mentions : List Nat)
  | castRemove (target : Bytes)
  | reaction (ty : Nat) (target : Option Target)
  | link (ty : Bytes) (target : Option Nat)
  | linkCompact (ty : Bytes) (targets : List Nat)
  | verificationAdd (address : Bytes)
  | verificationRemove (address : Bytes)
  | userData (ty : Nat) (value : Bytes)
  | usernameProof (name : Bytes)
  | lend (toFid units : Nat) (ty : UnitType)
  | channelUpdate (channel : Bytes) (casting membership : Option Int)
  | channelMember (channel : Bytes) (fid : Nat) (action : Int)
  | channelPin (channel castHash : Bytes)
  | channelModerate (channel castHash : Bytes) (action : Int)
  | other
  deriving DecidableEq, Repr

/-- A signed message, /repo/proto/definitions/message.proto:16-30. -/
structure Msg where
  fid : Nat
  ty : MessageType
  ts : Nat
  hash : Bytes
  signer : Bytes := []
  body : Body
  deriving DecidableEq, Repr

/-- A hub event, /repo/proto/definitions/hub_event.proto, for message stores. -/
inductive StoreEvent where
  | merge (message : Msg) (deleted : List Msg)
  | prune (message : Msg)
  | revoke (message : Msg)
  deriving DecidableEq, Repr

/-- A database value: plain bytes, an encoded message or an encoded event. -/
inductive SVal where
  | raw (b : Bytes)
  | msg (m : Msg)
  | event (id : Nat) (e : StoreEvent)
  deriving DecidableEq, Repr

/-- `message_decode`, /repo/src/storage/store/account/message.rs:345-352. -/
def SVal.decodeMsg : SVal → Option Msg
  | .msg m => some m
  | _ => none

/-- What a merge runs against: the transaction batch and the event id generator
(`StoreEventHandler`, /repo/src/storage/store/account/event.rs:91-124). -/
structure SSt where
  txn : Txn SVal
  gen : IdGen

/-- A fallible operation on the batch.  On an error the batch keeps what was staged before it. -/
def SM (α : Type) := SSt → Except HubErr α × SSt

namespace SM
def pure {α : Type} (a : α) : SM α := fun s => (.ok a, s)
def bind {α β : Type} (x : SM α) (f : α → SM β) : SM β := fun s =>
  match x s with
  | (.ok a, s') => f a s'
  | (.error e, s') => (.error e, s')
instance : Monad SM where
  pure := pure
  bind := bind
/-- Return an error. -/
def fail {α : Type} (e : HubErr) : SM α := fun s => (.error e, s)
/-- The `?` operator on a pure result. -/
def lift {α : Type} (r : Except HubErr α) : SM α := fun s => (r, s)
/-- `txn.put`. -/
def put (k : Bytes) (v : SVal) : SM Unit := fun s => (.ok (), { s with txn := s.txn.stagePut k v })
/-- `txn.delete`. -/
def del (k : Bytes) : SM Unit := fun s => (.ok (), { s with txn := s.txn.stageDel k })
/-- `get_from_db_or_txn`. -/
def read (db : Db SVal) (k : Bytes) : SM (Option SVal) := fun s => (.ok (getFromDbOrTxn db s.txn k), s)
/-- `store_event_handler.commit_transaction`, event.rs:109-124. -/
def event (e : StoreEvent) : SM StoreEvent := fun s =>
  match commitEvent s.gen s.txn false (fun id => SVal.event id e) with
  | (.ok (_, t), g) => (.ok e, { txn := t, gen := g })
  | (.error err, g) => (.error err, { s with gen := g })
/-- A `for` loop over a list. -/
def forEach {α : Type} (f : α → SM Unit) : List α → SM Unit
  | [] => pure ()
  | a :: l => bind (f a) (fun _ => forEach f l)
end SM

/-- The feature gates a merge depends on (`MergeContext`, store.rs:27-60), evaluated from the version
at the message's timestamp. -/
structure MergeCtx where
  /-- `ProtocolFeature::ChannelFollows` -/
  follows : Bool := true
  /-- `ProtocolFeature::BlockLinks` -/
  typedCompaction : Bool := true
  deriving DecidableEq, Repr

/-- The `StoreDef` trait, /repo/src/storage/store/account/store.rs:123-412. -/
structure StoreDef where
  /-- `postfix` -/
  set : UInt8
  /-- `add_message_type` -/
  addType : MessageType
  /-- `remove_message_type` (`none` when removes are not supported) -/
  removeType : MessageType
  /-- `compact_state_message_type` -/
  compactType : MessageType
  /-- `make_add_key` -/
  addKey : Msg → Except HubErr Bytes
  /-- `make_remove_key` -/
  removeKey : Msg → Except HubErr Bytes
  /-- `make_compact_state_add_key` -/
  compactKey : Msg → Except HubErr Bytes := fun _ => .error .invalidParameter
  /-- the rows `build_secondary_indices` stages, given the ts_hash -/
  indexRows : Bytes → Msg → Except HubErr (List (Bytes × SVal)) := fun _ _ => .ok []
  /-- the keys `delete_secondary_indices` deletes -/
  indexKeys : Bytes → Msg → Except HubErr (List Bytes) := fun _ _ => .ok []
  /-- the rows `build_follow_index` stages when the gate is open -/
  followRows : Msg → List (Bytes × SVal) := fun _ => []
  /-- the keys `delete_follow_index` deletes -/
  followKeys : Msg → List Bytes := fun _ => []
  /-- `message_compare` -/
  compare : MessageType → Bytes → MessageType → Bytes → Int
  /-- `is_compaction_conflict` (candidate, compact state message) -/
  compactionConflict : MergeCtx → Msg → Msg → Bool := fun _ _ _ => false
  /-- `compact_state_add_conflict` (new add, stored compact state message) -/
  compactAddConflict : Msg → Msg → Bool := fun _ _ => false

/-- The default `message_compare`, store.rs:358-380.  Operands are 24 bytes long. -/
def defaultCompare (addType removeType : MessageType) (aT : MessageType) (a : Bytes) (bT : MessageType)
    (b : Bytes) : Int :=
  let c := bytesCompare (a.take 4) (b.take 4)
  if c ≠ 0 then c
  else if aT = removeType ∧ bT = addType then 1
  else if aT = addType ∧ bT = removeType then -1
  else bytesCompare ((a.drop 4).take 20) ((b.drop 4).take 20)

namespace StoreDef
variable (D : StoreDef)

/-- `is_add_type`, e.g. cast_store.rs:64-74. -/
def isAdd (m : Msg) : Bool := m.ty = D.addType
/-- `remove_type_supported`, store.rs:142-144. -/
def removeSupported : Bool := D.removeType ≠ .none
/-- `is_remove_type`, e.g. cast_store.rs:76-87; constantly false in stores without removes. -/
def isRemove (m : Msg) : Bool := D.removeSupported && m.ty = D.removeType
/-- `compact_state_type_supported`, store.rs:146-148. -/
def compactSupported : Bool := D.compactType ≠ .none
/-- `is_compact_state_type`, e.g. link_store.rs:505-515. -/
def isCompact (m : Msg) : Bool := D.compactSupported && m.ty = D.compactType

/-- `vec_to_u8_24`, /repo/src/storage/util.rs:62-82, on a stored value. -/
def asTsHash : SVal → Except HubErr Bytes
  | .raw b => if b.length = 24 then .ok b else .error .internal
  | _ => .error .internal

/-- The bytes of a stored value. -/
def rawOf : SVal → Bytes
  | .raw b => b
  | _ => []

/-- `get_message` and `get_message_by_key`, /repo/src/storage/store/account/message.rs:209-219 and
233-249. -/
def getMessage (db : Db SVal) (fid : Nat) (tsHash : Bytes) : SM (Option Msg) := do
  match ← SM.read db (makeMessagePrimaryKey fid D.set (some tsHash)) with
  | none => return none
  | some v => match v.decodeMsg with
    | some m => return some m
    | none => SM.fail .decode

/-- One half of `get_merge_conflicts`, store.rs:267-309 and 312-353: compare the stored selector row
with the new message, and load the message it points at. -/
def conflictAt (db : Db SVal) (storedType : MessageType) (key : Bytes) (m : Msg) (tsHash : Bytes) :
    SM (List Msg) := do
  match ← SM.read db key with
  | none => return []
  | some stored =>
    let c := D.compare storedType (rawOf stored) m.ty tsHash
    if c > 0 then SM.fail .conflict
    else if c = 0 then SM.fail .duplicate
    else
      let th ← SM.lift (asTsHash stored)
      match ← D.getMessage db m.fid th with
      | some old => return [old]
      | none => return []

/-- The remove half of `get_merge_conflicts`, store.rs:266-309. -/
def removeConflicts (db : Db SVal) (m : Msg) (tsHash : Bytes) : SM (List Msg) :=
  if D.removeSupported then do
    let rk ← SM.lift (D.removeKey m)
    D.conflictAt db D.removeType rk m tsHash
  else pure []

/-- `get_merge_conflicts`, store.rs:258-356. -/
def getMergeConflicts (db : Db SVal) (m : Msg) (tsHash : Bytes) : SM (List Msg) := do
  let removes ← D.removeConflicts db m tsHash
  let ak ← SM.lift (D.addKey m)
  let adds ← D.conflictAt db D.addType ak m tsHash
  return removes ++ adds

/-- `put_message_transaction`, /repo/src/storage/store/account/message.rs:354-369.  The set byte is that
of the message's type (`type_to_set_postfix`), which is the store's own for the types it accepts. -/
def putMessage (m : Msg) : SM Unit := do
  let th ← SM.lift (makeTsHash m.ts m.hash)
  SM.put (makeMessagePrimaryKey m.fid D.set (some th)) (.msg m)

/-- `delete_message_transaction`, message.rs:371-386. -/
def deleteMessage (m : Msg) : SM Unit := do
  let th ← SM.lift (makeTsHash m.ts m.hash)
  SM.del (makeMessagePrimaryKey m.fid D.set (some th))

/-- `put_add_transaction`, store.rs:635-655. -/
def putAdd (ctx : MergeCtx) (tsHash : Bytes) (m : Msg) : SM Unit := do
  D.putMessage m
  let ak ← SM.lift (D.addKey m)
  SM.put ak (.raw tsHash)
  let rows ← SM.lift (D.indexRows tsHash m)
  SM.forEach (fun r => SM.put r.1 r.2) rows
  SM.forEach (fun r => SM.put r.1 r.2) (if ctx.follows then D.followRows m else [])

/-- `delete_add_transaction`, store.rs:675-690. -/
def deleteAdd (tsHash : Bytes) (m : Msg) : SM Unit := do
  let keys ← SM.lift (D.indexKeys tsHash m)
  SM.forEach SM.del keys
  SM.forEach SM.del (D.followKeys m)
  let ak ← SM.lift (D.addKey m)
  SM.del ak
  D.deleteMessage m

/-- `put_remove_transaction`, store.rs:692-711. -/
def putRemove (tsHash : Bytes) (m : Msg) : SM Unit := do
  if !D.removeSupported then SM.fail .validation
  else
    D.putMessage m
    let rk ← SM.lift (D.removeKey m)
    SM.put rk (.raw tsHash)

/-- `delete_remove_transaction`, store.rs:713-729. -/
def deleteRemove (m : Msg) : SM Unit := do
  if !D.removeSupported then SM.fail .validation
  else
    let rk ← SM.lift (D.removeKey m)
    SM.del rk
    D.deleteMessage m

/-- `put_add_compact_state_transaction`, store.rs:617-633. -/
def putCompact (m : Msg) : SM Unit := do
  if !D.compactSupported then SM.fail .validation
  else
    let k ← SM.lift (D.compactKey m)
    SM.put k (.msg m)

/-- `delete_compact_state_transaction`, store.rs:657-673. -/
def deleteCompact (m : Msg) : SM Unit := do
  if !D.compactSupported then SM.fail .validation
  else
    let k ← SM.lift (D.compactKey m)
    SM.del k

/-- The first `if` of `delete_many_transaction`, store.rs:737-743. -/
def deleteCompactOrAdd (m : Msg) : SM Unit :=
  if D.isCompact m then D.deleteCompact m
  else if D.isAdd m then do
    let th ← SM.lift (makeTsHash m.ts m.hash)
    D.deleteAdd th m
  else pure ()

/-- The second `if` of `delete_many_transaction`, store.rs:744-746. -/
def deleteIfRemove (m : Msg) : SM Unit :=
  if D.removeSupported && D.isRemove m then D.deleteRemove m else pure ()

/-- One message of `delete_many_transaction`, store.rs:736-747. -/
def deleteOne (m : Msg) : SM Unit := do
  D.deleteCompactOrAdd m
  D.deleteIfRemove m

/-- `delete_many_transaction`, store.rs:731-750. -/
def deleteMany (ms : List Msg) : SM Unit := SM.forEach D.deleteOne ms

/-- `merge_add_with_conflicts`, store.rs:1067-1090. -/
def mergeAddWithConflicts (ctx : MergeCtx) (tsHash : Bytes) (m : Msg) (conflicts : List Msg) :
    SM StoreEvent := do
  D.putAdd ctx tsHash m
  SM.event (.merge m conflicts)

/-- `merge_remove_with_conflicts`, store.rs:1145-1167. -/
def mergeRemoveWithConflicts (tsHash : Bytes) (m : Msg) (conflicts : List Msg) : SM StoreEvent := do
  D.putRemove tsHash m
  SM.event (.merge m conflicts)

/-- The compact-state lookup at the start of `merge_add` and `merge_remove`, store.rs:1032-1044 and
1104-1117.  The `prunable` error of a remove is recorded as a conflict. -/
def storedCompact (db : Db SVal) (m : Msg) : SM (Option Msg) := do
  if D.compactSupported then
    let k ← SM.lift (D.compactKey m)
    match ← SM.read db k with
    | none => return none
    | some v => match v.decodeMsg with
      | some c => return some c
      | none => SM.fail .decode
  else return none

/-- The compact-state check of `merge_add`, store.rs:1039-1048. -/
def checkCompactAdd (m : Msg) : Option Msg → SM Unit
  | some c => if D.compactAddConflict m c then SM.fail .conflict else pure ()
  | none => pure ()

/-- The compact-state check of `merge_remove`, store.rs:1111-1123. -/
def checkCompactRemove (m : Msg) : Option Msg → SM Unit
  | some c => if m.ts < c.ts then SM.fail .conflict else pure ()
  | none => pure ()

/-- `merge_add`, store.rs:1019-1065. -/
def mergeAdd (db : Db SVal) (ctx : MergeCtx) (tsHash : Bytes) (m : Msg) : SM StoreEvent := do
  let c ← D.storedCompact db m
  D.checkCompactAdd m c
  let conflicts ← D.getMergeConflicts db m tsHash
  D.deleteMany conflicts
  D.mergeAddWithConflicts ctx tsHash m conflicts

/-- `merge_remove`, store.rs:1092-1143. -/
def mergeRemove (db : Db SVal) (tsHash : Bytes) (m : Msg) : SM StoreEvent := do
  let c ← D.storedCompact db m
  checkCompactRemove m c
  let conflicts ← D.getMergeConflicts db m tsHash
  D.deleteMany conflicts
  D.mergeRemoveWithConflicts tsHash m conflicts

/-- The scan callback of `merge_compact_state`, store.rs:972-986: stop past the compact state's timestamp,
collect what it supersedes. -/
def compactionStep (ctx : MergeCtx) (m : Msg) (acc : List Msg) (_ : Bytes) (v : SVal) :
    Except HubErr (List Msg × Bool) :=
  match v.decodeMsg with
  | none => .error .decode
  | some c =>
    if c.ts > m.ts then .ok (acc, true)
    else if D.compactionConflict ctx c m then .ok (acc ++ [c], false)
    else .ok (acc, false)

/-- The scan of `merge_compact_state`, store.rs:962-988: the committed messages of the user, oldest
first, up to the compact state's timestamp, that it supersedes. -/
def compactionScan (db : Db SVal) (ctx : MergeCtx) (m : Msg) : Except HubErr (List Msg) :=
  let p := makeMessagePrimaryKey m.fid D.set none
  match forEachByPrefix db (some p) (some (incrementVec p)) {} (D.compactionStep ctx m) [] with
  | .error e => .error e
  | .ok (acc, _) => .ok acc

/-- The check against the stored compact state, store.rs:945-968.  An undecodable one is ignored. -/
def olderCompact (m : Msg) : Option SVal → SM (List Msg)
  | none => pure []
  | some v => match v.decodeMsg with
    | none => pure []
    | some c => if c.ts < m.ts then pure [c] else SM.fail .conflict

/-- `merge_compact_state`, store.rs:930-1017. -/
def mergeCompact (db : Db SVal) (ctx : MergeCtx) (m : Msg) : SM StoreEvent := do
  let k ← SM.lift (D.compactKey m)
  let stored ← SM.read db k
  let old ← olderCompact m stored
  let superseded ← SM.lift (D.compactionScan db ctx m)
  let conflicts := old ++ superseded
  D.deleteMany conflicts
  D.putCompact m
  SM.event (.merge m conflicts)

/-- `merge`, store.rs:804-835. -/
def merge (db : Db SVal) (ctx : MergeCtx) (m : Msg) : SM StoreEvent := do
  if !D.isAdd m && !D.isRemove m && !D.isCompact m then SM.fail .validation
  else
    let th ← SM.lift (makeTsHash m.ts m.hash)
    if D.isCompact m then D.mergeCompact db ctx m
    else if D.isAdd m then D.mergeAdd db ctx th m
    else D.mergeRemove db th m

/-- `resolve_selector_message`, store.rs:754-780. -/
def resolveSelector (db : Db SVal) (fid : Nat) (key : Bytes) : SM (List Msg) := do
  match ← SM.read db key with
  | none => return []
  | some stored =>
    let th ← SM.lift (asTsHash stored)
    match ← D.getMessage db fid th with
    | some m => return [m]
    | none => return []

/-- The remove half of `get_existing_merge_conflicts`, store.rs:793-796. -/
def existingRemove (db : Db SVal) (m : Msg) : SM (List Msg) :=
  if D.removeSupported then do
    let rk ← SM.lift (D.removeKey m)
    D.resolveSelector db m.fid rk
  else pure []

/-- `get_existing_merge_conflicts`, store.rs:785-802. -/
def existingConflicts (db : Db SVal) (m : Msg) : SM (List Msg) := do
  let removes ← D.existingRemove db m
  let ak ← SM.lift (D.addKey m)
  let adds ← D.resolveSelector db m.fid ak
  return removes ++ adds

/-- `merge_force_override`, store.rs:843-892. -/
def mergeForce (db : Db SVal) (ctx : MergeCtx) (m : Msg) : SM StoreEvent := do
  if D.compactSupported then SM.fail .invalidParameter
  else if !D.isAdd m && !D.isRemove m then SM.fail .validation
  else
    let th ← SM.lift (makeTsHash m.ts m.hash)
    let existing ← D.existingConflicts db m
    let conflicts := existing.filter (fun c => c.hash ≠ m.hash)
    D.deleteMany conflicts
    if D.isAdd m then D.mergeAddWithConflicts ctx th m conflicts
    else D.mergeRemoveWithConflicts th m conflicts

/-- The deletes of `revoke`, store.rs:907-918. -/
def revokeDelete (th : Bytes) (m : Msg) : SM Unit :=
  if D.isCompact m then D.deleteCompact m
  else if D.isAdd m then D.deleteAdd th m
  else if D.isRemove m then D.deleteRemove m
  else SM.fail .invalidParameter

/-- `revoke`, store.rs:894-928. -/
def revoke (m : Msg) : SM StoreEvent := do
  let th ← SM.lift (makeTsHash m.ts m.hash)
  D.revokeDelete th m
  SM.event (.revoke m)

/-- The deletes of `prune_message`, store.rs:1184-1190. -/
def pruneDelete (m : Msg) : SM Unit :=
  if D.isAdd m then do
    let th ← SM.lift (makeTsHash m.ts m.hash)
    D.deleteAdd th m
  else if D.isRemove m then D.deleteRemove m
  else pure ()

/-- `prune_message`, store.rs:1169-1200. -/
def pruneMessage (m : Msg) : SM (Option StoreEvent) :=
  if D.isCompact m then pure none
  else do
    D.pruneDelete m
    let e ← SM.event (.prune m)
    return some e

/-- The scan callback of `prune_messages`, store.rs:1227-1243, on the scanned rows in key order.
`count` is the running message count. -/
def pruneLoop (maxCount : Nat) : List (Bytes × SVal) → Nat → SM (List StoreEvent)
  | [], _ => pure []
  | (_, v) :: rest, count => do
    if count ≤ maxCount then return []
    else
      match v.decodeMsg with
      | none => SM.fail .decode
      | some m =>
        match ← D.pruneMessage m with
        | some e =>
          let es ← pruneLoop maxCount rest (count - 1)
          return e :: es
        | none => pruneLoop maxCount rest count

/-- `prune_messages`, store.rs:1202-1247.  The scan reads the committed database, not the batch. -/
def pruneMessages (db : Db SVal) (fid currentCount maxCount : Nat) : SM (List StoreEvent) := do
  if currentCount ≤ maxCount then return []
  else
    let p := makeMessagePrimaryKey fid D.set none
    let b := iterBounds (some p) (some (incrementVec p)) {}
    D.pruneLoop maxCount (scanRows db b.1 b.2 false) currentCount

/-- The scan callback of `revoke_messages_by_signer`, store.rs:1268-1288: an error revoking one message
is skipped. -/
def revokeLoop (signer : Bytes) : List (Bytes × SVal) → SM (List StoreEvent)
  | [] => pure []
  | (_, v) :: rest =>
    match v.decodeMsg with
    | none => SM.fail .decode
    | some m =>
      if bytesCompare m.signer signer = 0 then fun s =>
        match D.revoke m s with
        | (.ok e, s') => (do let es ← revokeLoop signer rest; return e :: es : SM _) s'
        | (.error _, s') => revokeLoop signer rest s'
      else revokeLoop signer rest

/-- `revoke_messages_by_signer`, store.rs:1249-1292.  The scan reads the committed database. -/
def revokeBySigner (db : Db SVal) (fid : Nat) (signer : Bytes) : SM (List StoreEvent) :=
  let p := makeMessagePrimaryKey fid D.set none
  let b := iterBounds (some p) (some (incrementVec p)) {}
  D.revokeLoop signer (scanRows db b.1 b.2 false)

/-- `get_add`, store.rs:500-531. -/
def getAdd (db : Db SVal) (t : Txn SVal) (partial_ : Msg) : Except HubErr (Option Msg) :=
  (do
    if partial_.fid = 0 then SM.fail .invalidParameter
    else
    let k ← SM.lift (D.addKey partial_)
    match ← SM.read db k with
    | none => return none
    | some v =>
      let th ← SM.lift (asTsHash v)
      D.getMessage db partial_.fid th : SM (Option Msg)) ⟨t, {}⟩ |>.1

/-- `get_remove`, store.rs:533-571. -/
def getRemove (db : Db SVal) (t : Txn SVal) (partial_ : Msg) : Except HubErr (Option Msg) :=
  (do
    if !D.removeSupported then SM.fail .validation
    else if partial_.fid = 0 then SM.fail .invalidParameter
    else
      let k ← SM.lift (D.removeKey partial_)
      match ← SM.read db k with
      | none => return none
      | some v =>
        let th ← SM.lift (asTsHash v)
        D.getMessage db partial_.fid th : SM (Option Msg)) ⟨t, {}⟩ |>.1

/-- `get_adds_by_fid`, store.rs:573-594, without a caller filter. -/
def getAddsByFid (db : Db SVal) (fid : Nat) (po : PageOptions) : Except HubErr (MessagesPage Msg) :=
  getMessagesPageByPrefix SVal.decodeMsg db (makeMessagePrimaryKey fid D.set none) po D.isAdd

/-- `get_removes_by_fid`, store.rs:596-617. -/
def getRemovesByFid (db : Db SVal) (fid : Nat) (po : PageOptions) : Except HubErr (MessagesPage Msg) :=
  if !D.removeSupported then .error .validation
  else getMessagesPageByPrefix SVal.decodeMsg db (makeMessagePrimaryKey fid D.set none) po D.isRemove

end StoreDef
end Verif
