import Verif.Model.KV
/-!
Hub event ids and the event log.  Models /repo/src/storage/store/account/event.rs.
-/
namespace Verif

/-- `HEIGHT_BITS`, `SEQUENCE_BITS`: /repo/src/storage/store/account/event.rs:12-13. -/
def heightBits : Nat := 50
def sequenceBits : Nat := 14

/-- `HubEventIdGenerator`, /repo/src/storage/store/account/event.rs:20-23. -/
structure IdGen where
  height : Nat := 0
  seq : Nat := 0
  deriving DecidableEq, Repr

namespace IdGen

/-- `set_current_height`, event.rs:33-36. -/
def setHeight (_ : IdGen) (h : Nat) : IdGen := ⟨h, 0⟩

/-- `make_event_id`, event.rs:75-79, on `u64` (the shift drops bits above 2^64). -/
def makeEventId (height seq : Nat) : Nat :=
  ((height <<< sequenceBits) % 2 ^ 64) ||| (seq &&& (1 <<< sequenceBits - 1))

/-- `make_event_id_for_block_number`, event.rs:81-83. -/
def makeEventIdForBlockNumber (height : Nat) : Nat := makeEventId height 0

/-- `extract_height_and_seq`, event.rs:85-89. -/
def extract (id : Nat) : Nat × Nat := (id >>> sequenceBits, id &&& (1 <<< sequenceBits - 1))

/-- `generate_id`, event.rs:38-73.  Of the event only whether it is a `BlockConfirmed` event
matters. -/
def generateId (g : IdGen) (confirmed : Bool) : Except HubErr Nat × IdGen :=
  if g.height ≥ 2 ^ heightBits then (.error .invalidParameter, g)
  else if g.seq ≥ 2 ^ sequenceBits then (.error .invalidParameter, g)
  else if confirmed then (.ok (makeEventId g.height 0), g)
  else
    let s := if g.seq = 0 then 1 else g.seq
    (.ok (makeEventId g.height s), { g with seq := s + 1 })

end IdGen

/-- `make_event_key`, event.rs:148-155. -/
def eventKey (id : Nat) : Bytes := 9 :: be 8 id

/-- `put_event_transaction`, event.rs:158-168. -/
def putEvent {V : Type} (t : Txn V) (id : Nat) (v : V) : Txn V := t.stagePut (eventKey id) v

/-- `StoreEventHandler::commit_transaction`, event.rs:109-124: draw an id and stage the event under
it.  `enc id` is the encoded event carrying that id. -/
def commitEvent {V : Type} (g : IdGen) (t : Txn V) (confirmed : Bool) (enc : Nat → V) :
    Except HubErr (Nat × Txn V) × IdGen :=
  match g.generateId confirmed with
  | (.error e, g') => (.error e, g')
  | (.ok id, g') => (.ok (id, putEvent t id (enc id)), g')

/-- `PAGE_SIZE_MAX` of /repo/src/storage/constants.rs:1. -/
def eventPageSizeMax : Nat := 1000

/-- `get_events`, event.rs:170-209. -/
def getEvents {V M : Type} (decode : V → Option M) (db : Db V) (startId : Nat) (stopId : Option Nat)
    (po : PageOptions) : Except HubErr (MessagesPage M) :=
  let stop := match stopId with
    | some id => eventKey id
    | none => incrementVec (eventKey (2 ^ 64 - 1))
  match forEachPaged db (some (eventKey startId)) (some stop) po
      (fun (s : List M × Bytes) k v =>
        match decode v with
        | none => .error .decode
        | some m =>
          let ms := s.1 ++ [m]
          if ms.length ≥ po.pageSize.getD eventPageSizeMax then .ok ((ms, k), true)
          else .ok ((ms, s.2), false))
      (([], []) : List M × Bytes) with
  | .error e => .error e
  | .ok ((ms, lastKey), _) =>
    .ok { messages := ms, nextPageToken := if lastKey.isEmpty then none else some lastKey }

/-- `get_event`, event.rs:211-225. -/
def getEvent {V M : Type} (decode : V → Option M) (db : Db V) (id : Nat) : Except HubErr M :=
  match db.get (eventKey id) with
  | none => .error .notFound
  | some v => match decode v with
    | some m => .ok m
    | none => .error .internal

/-- `prune_events_util`, event.rs:227-252, with an iteration budget for the page loop. -/
def pruneEvents {V : Type} (fuel : Nat) (db : Db V) (stopHeight : Nat) (po : PageOptions) :
    Option (Except HubErr (Db V × Nat)) :=
  deletePaginated (some (eventKey 0)) (some (eventKey (IdGen.makeEventIdForBlockNumber stopHeight))) po
    fuel db 0

end Verif
