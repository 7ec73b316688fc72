import Verif.Model.OnChain
/-!
The job that offers the on-chain events of a data shard to shard 0.  `migrate` in citations is
/repo/src/jobs/migrate_onchain_events.rs and `onchain` is /repo/src/storage/store/account/onchain_event_store.rs.
The mempool is the list of events sent to it; waiting for it to empty and the statistics are left out.
-/
namespace Verif
namespace EvMig

/-- `MIGRATION_BATCH_SIZE`, migrate 18. -/
def batchSize : Nat := 100

/-- The callback of `get_onchain_events`, onchain 811-821. -/
def pageStep (s : List OEvent × Bytes) (k : Bytes) (v : OVal) : Except HubErr ((List OEvent × Bytes) × Bool) :=
  match v with
  | .event e =>
    if (s.1 ++ [e]).length ≥ batchSize then .ok ((s.1 ++ [e], k), true) else .ok ((s.1 ++ [e], s.2), false)
  | _ => .error .decode

/-- `get_all_onchain_events`, onchain 1105-1119 and 799-834, with the page options of migrate 116-120: the events and the
next token. -/
def allEvents (db : Db OVal) (token : Option Bytes) : Except HubErr (List OEvent × Option Bytes) :=
  match forEachPaged db (some [12, 1]) (some (incrementVec [12, 1]))
      { pageSize := some batchSize, pageToken := token, reverse := false } pageStep ([], []) with
  | .error x => .error x
  | .ok (s, _) => .ok (s.1, if s.2.isEmpty then none else some s.2)

/-- Is the event sent to the mempool?  migrate 128-182: it is merged into a batch that is thrown away, and any error means
that it is passed over. -/
def wanted (keccak : Bytes → Bytes) (zero : Db OVal) (e : OEvent) : Bool :=
  match (mergeOnchainEvent keccak false zero OMap.empty e).1 with
  | .ok _ => true
  | .error _ => false

/-- One turn of the loop: the database of the shard, that of shard 0 as it is when an event is looked at, whether reading the
stored token fails, and after how many events the node crashes or the mempool is gone, if so.  All of a page may be
sent and the new token still be lost. -/
structure Turn where
  src : Db OVal
  zero : OEvent → Db OVal
  forget : Bool := false
  stop : Option Nat := none

/-- The stored token, everything sent, and how often the job came to its end. -/
structure Job where
  token : Option Bytes := none
  sent : List OEvent := []
  finished : Nat := 0

/-- One turn of the loop of `migrate_onchain_events`, migrate 33-85, with `migrate_shard_onchain_events_batch`, migrate
109-184, and `set_onchain_events_migration_page_token`, node_local_state.rs:283-301.  A job that ends goes on with the next
turn when it is started again. -/
def Job.turn (keccak : Bytes → Bytes) (j : Job) (a : Turn) : Job :=
  match allEvents a.src (if a.forget then none else j.token) with
  | .error _ => j
  | .ok (events, next) => match a.stop with
    | some n => { j with sent := j.sent ++ (events.take n).filter fun e => wanted keccak (a.zero e) e }
    | none =>
      { token := next, sent := j.sent ++ events.filter (fun e => wanted keccak (a.zero e) e),
        finished := if next.isNone then j.finished + 1 else j.finished }

/-- Any turns, of one start of the job or of many. -/
def Job.run (keccak : Bytes → Bytes) (j : Job) (h : List Turn) : Job := h.foldl (Job.turn keccak) j

end EvMig
end Verif
