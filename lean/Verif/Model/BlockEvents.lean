import Verif.Model.KV
import Verif.Model.Version
import Verif.Model.Store
import Verif.Model.OnChain
/-!
Block events: what shard 0 hands to the data shards.  Models
/repo/src/storage/store/account/block_event_store.rs and `generate_block_events` of
/repo/src/storage/store/block_engine.rs.  Events are kept as values; `enc` is the protobuf encoding of the event
data and `H` is blake3.
-/
namespace Verif

/-- The body of `BlockEventData`, /repo/proto/definitions/blocks.proto:129-140. -/
inductive BBody where
  | heartbeat
  | message (m : Option Msg)
  | onchain (e : Option OEvent)
  deriving DecidableEq, Repr

/-- `BlockEventData`, blocks.proto:129-140. -/
structure BData where
  seqnum : Nat
  ty : Nat
  blockNumber : Nat
  index : Nat
  ts : Nat
  body : Option BBody
  deriving DecidableEq, Repr

/-- `BlockEvent`, blocks.proto:142-145. -/
structure BEvent where
  hash : Bytes
  data : Option BData
  deriving DecidableEq, Repr

/-- `make_block_event_key`, block_event_store.rs:33-40. -/
def blockEventKey (seqnum : Nat) : Bytes := 19 :: be 8 seqnum

section
variable {V : Type}

/-- `get_block_page_by_prefix`, block_event_store.rs:42-90.  `dec` decodes a row; every error of the iteration
becomes `TooManyBlocksInResult`. -/
def blockEventPage (dec : V → Option BEvent) (db : Db V) (po : PageOptions) (start stop : Option Bytes) :
    Except HubErr (MessagesPage BEvent) :=
  let start := start.getD (blockEventKey 0)
  let stop := stop.getD [20]
  match forEachPaged db (some start) (some stop) po
      (fun (s : List BEvent × Bytes) k v =>
        match dec v with
        | none => .error .decode
        | some e =>
          let es := s.1 ++ [e]
          if es.length ≥ po.pageSize.getD 1000 then .ok ((es, k), true) else .ok ((es, s.2), false))
      (([], []) : List BEvent × Bytes) with
  | .error _ => .error .internal
  | .ok ((es, lastKey), _) => .ok { messages := es, nextPageToken := if lastKey.isEmpty then none else some lastKey }

/-- `get_last_block_event`, block_event_store.rs:92-110. -/
def lastBlockEvent (dec : V → Option BEvent) (db : Db V) : Except HubErr (Option BEvent) :=
  match blockEventPage dec db { pageSize := some 1, reverse := true } (some (blockEventKey 0)) none with
  | .error e => .error e
  | .ok p => if p.messages.length > 1 then .error .internal else .ok p.messages.head?

/-- `max_seqnum`, block_event_store.rs:160-170. -/
def maxSeqnum (dec : V → Option BEvent) (db : Db V) : Except HubErr Nat :=
  match lastBlockEvent dec db with
  | .error e => .error e
  | .ok none => .ok 0
  | .ok (some e) =>
    match e.data with
    | none => .error .internal
    | some d => .ok d.seqnum

/-- `put_block_event`, block_event_store.rs:112-125. -/
def putBlockEvent (enc : BEvent → V) (e : BEvent) (t : Txn V) : Except HubErr (Txn V) :=
  match e.data with
  | none => .error .internal
  | some d => .ok (t.stagePut (blockEventKey d.seqnum) (enc e))

/-- `get_block_event_by_seqnum`, block_event_store.rs:145-154. -/
def blockEventBySeqnum (dec : V → Option BEvent) (db : Db V) (seqnum : Nat) : Except HubErr (Option BEvent) :=
  match db.get (blockEventKey seqnum) with
  | none => .ok none
  | some v => match dec v with
    | none => .error .decode
    | some e => .ok (some e)

end

/-- The hub events `generate_block_events` looks at, /repo/proto/definitions/hub_event.proto. -/
inductive ZHub where
  | mergeMessage (m : Option Msg)
  | mergeOnChain (e : Option OEvent)
  | other
  deriving DecidableEq, Repr

/-- `heartbeat_block_interval`, block_engine.rs:1703-1708. -/
def heartbeatInterval : Network → Nat
  | .devnet => 5
  | _ => 100

/-- Which messages leave shard 0: block_engine.rs:1739-1799. -/
def fansOut (v : EngineVersion) : MessageType → Bool
  | .keyAdd | .keyRemove => v.isEnabled .gaslessSigners
  | .lendStorage | .verificationAdd | .verificationRemove => true
  | .channelUpdate | .channelMember | .channelPin | .channelModerate => v.isEnabled .channelMessages
  | _ => false

/-- One arm of the loop of `generate_block_events`, block_engine.rs:1733-1829: the type and body of the block
event for a hub event.  6 is `EVENT_TYPE_CHANNEL_REGISTER`. -/
def blockEventBody (v : EngineVersion) : ZHub → Option (Nat × BBody)
  | .mergeMessage (some m) => if fansOut v m.ty then some (1, .message (some m)) else none
  | .mergeMessage none => none
  | .mergeOnChain (some e) =>
    if e.ty ≠ 6 || !v.isEnabled .channelOwnershipEvents then none else some (2, .onchain (some e))
  | .mergeOnChain none => none
  | .other => none

/-- The block a list of block events is made for. -/
structure BlockCtx where
  network : Network
  height : Nat
  ts : Nat
  version : EngineVersion

/-- `build_block_event`, block_engine.rs:1710-1718. -/
def buildBlockEvent (H : Bytes → Bytes) (enc : BData → Bytes) (d : BData) : BEvent := ⟨H (enc d), some d⟩

/-- `max_block_event_seqnum += 1` on a `u64` in a release build (it wraps), and the pushed event. -/
def pushBlockEvent (H : Bytes → Bytes) (enc : BData → Bytes) (c : BlockCtx) (s : Nat × List BEvent)
    (b : Nat × BBody) : Nat × List BEvent :=
  let n := (s.1 + 1) % 2 ^ 64
  (n, s.2 ++ [buildBlockEvent H enc ⟨n, b.1, c.height, s.2.length, c.ts, some b.2⟩])

/-- The loop over the hub events, block_engine.rs:1732-1829. -/
def blockEventLoop (H : Bytes → Bytes) (enc : BData → Bytes) (c : BlockCtx) (s : Nat × List BEvent)
    (hub : ZHub) : Nat × List BEvent :=
  match blockEventBody c.version hub with
  | none => s
  | some b => pushBlockEvent H enc c s b

/-- The hash of a list of events, block_engine.rs:1858-1866. -/
def eventsHash (H : Bytes → Bytes) (es : List BEvent) : Bytes :=
  if es.isEmpty then [] else H (es.flatMap (·.hash))

/-- `generate_block_events`, block_engine.rs:1720-1869.  `maxSeq` is the stored maximum. -/
def generateBlockEvents (H : Bytes → Bytes) (enc : BData → Bytes) (c : BlockCtx) (maxSeq : Nat)
    (hubs : List ZHub) : List BEvent :=
  let s := hubs.foldl (blockEventLoop H enc c) (maxSeq, [])
  let s := if c.height % heartbeatInterval c.network = 0 then pushBlockEvent H enc c s (0, .heartbeat) else s
  s.2

/-- The loop that stores the events, block_engine.rs:1851-1856. -/
def stageBlockEvents (t : Txn BEvent) : List BEvent → Except HubErr (Txn BEvent)
  | [] => .ok t
  | e :: es =>
    match putBlockEvent id e t with
    | .error e => .error e
    | .ok t => stageBlockEvents t es

/-- One block of shard 0 as far as block events go: `replay_proposal` and the commit in `commit_block`,
block_engine.rs:2131-2143 and 2247-2249.  `claimed` is the events hash of the header; `none` is the panic on a
mismatch (or on a failing store). -/
def commitBlockEvents (H : Bytes → Bytes) (enc : BData → Bytes) (db : Db BEvent) (c : BlockCtx)
    (hubs : List ZHub) (claimed : Bytes) : Option (Db BEvent × List BEvent) :=
  match maxSeqnum some db with
  | .error _ => none
  | .ok m =>
    let es := generateBlockEvents H enc c m hubs
    match stageBlockEvents OMap.empty es with
    | .error _ => none
    | .ok t => if eventsHash H es ≠ claimed then none else some (db.commit t, es)

end Verif
