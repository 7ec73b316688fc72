import Verif.Model.Event
import Verif.Model.MessageType
/-!
The stream of hub events.  Models `subscribe`, `get_events_from_store`, `rewrite_hub_event` and `get_events` of
/repo/src/network/server.rs (below: server) and the emission of events in `commit_and_emit_events`,
/repo/src/storage/store/engine.rs:2421-2482 (below: engine), with the interleaving of the two.

Simplifications: of the database only the event log and the chunk timestamps are kept; events do not get pruned while
a subscriber reads; the channel to the client (100 entries) is a list, as a full channel only makes the sender wait.
-/
namespace Verif

/-- The body of an event: a merged message (its type, the message, the messages it deleted) or anything else. -/
inductive HubBody where
  | mergeMessage (ty : Option MessageType) (message : Bytes) (deleted : List Bytes)
  | other (content : Bytes)
  deriving DecidableEq, Repr

/-- `HubEvent`, /repo/proto/definitions/hub_event.proto:110-132. -/
structure HEvent where
  ty : Int
  id : Nat
  body : Option HubBody
  block : Nat := 0
  shard : Nat := 0
  ts : Nat := 0
  deriving DecidableEq, Repr

/-- The deleted messages of a compaction are left out, server 1384-1404. -/
def trimBody : Option HubBody → Option HubBody
  | some (.mergeMessage (some .linkCompactState) m _) => some (.mergeMessage (some .linkCompactState) m [])
  | b => b

/-- `rewrite_hub_event`, server 1373-1406. -/
def rewriteEvent (e : HEvent) (shard : Nat) (ts : Option Nat) : HEvent :=
  { e with block := (IdGen.extract e.id).1, shard := shard, ts := ts.getD e.ts, body := trimBody e.body }

/-- The chunk whose timestamp goes into an event of block `b`, server 1421-1438: the one looked up last if it is of that block,
otherwise the one stored for the block, if there is one. -/
def chunkFor (chunks : Nat → Option Nat) (b : Nat) (last : Option (Nat × Nat)) : Option (Nat × Nat) :=
  let stored := match chunks b with
    | some ts => some (b, ts)
    | none => none
  match last with
  | some (n, ts) => if b ≠ n then stored else some (n, ts)
  | none => stored

/-- The events of a page with shard, block number and the timestamp of their chunk, server 1419-1445.  `last` is the chunk
looked up last: its block number and timestamp. -/
def fillIn (chunks : Nat → Option Nat) (shard : Nat) : Option (Nat × Nat) → List HEvent → List HEvent × Option (Nat × Nat)
  | last, [] => ([], last)
  | last, e :: es =>
    let last := chunkFor chunks (IdGen.extract e.id).1 last
    let r := fillIn chunks shard last es
    (rewriteEvent e shard (last.map (·.2)) :: r.1, r.2)

/-- `get_events_from_store`, server 1408-1454; an error is the panic of its `unwrap`. -/
def eventsFromStore (log : Db HEvent) (chunks : Nat → Option Nat) (shard : Nat) (start : Nat) (stop : Option Nat) (po : PageOptions)
    (last : Option (Nat × Nat)) : Except HubErr (MessagesPage HEvent × Option (Nat × Nat)) :=
  match getEvents some log start stop po with
  | .error e => .error e
  | .ok p =>
    let r := fillIn chunks shard last p.messages
    .ok ({ messages := r.1, nextPageToken := p.nextPageToken }, r.2)

/-- A data shard as far as its events go: the log and the timestamps of the stored chunks; what was handed to the
broadcast channel; and, while a commit is under way, the events still to be handed over and the chunk still to be
stored.  `written` lists the events of the log in the order they were written; it is bookkeeping for stating
properties, and no step reads it. -/
structure EvShard where
  log : Db HEvent := OMap.empty
  chunks : Nat → Option Nat := fun _ => none
  sent : List HEvent := []
  queue : List HEvent := []
  chunk : Option (Nat × Nat) := none
  written : List HEvent := []

/-- The steps of `commit_and_emit_events`, and the pruning of chunks. -/
inductive CommitStep where
  /-- `db.commit(txn)`, engine 2463: the events of the block are in the log -/
  | write (height ts : Nat) (es : List HEvent)
  /-- one iteration of the loop over the events, engine 2464-2467 -/
  | send
  /-- `put_shard_chunk`, engine 2470-2475 -/
  | chunk
  /-- an old chunk is pruned -/
  | forget (height : Nat)
  deriving DecidableEq, Repr

/-- One step of a shard.  Commits of a shard follow one another: a write during a commit does not happen. -/
def EvShard.step (s : EvShard) : CommitStep → EvShard
  | .write h ts es =>
    if s.queue = [] ∧ s.chunk = none then
      { s with log := es.foldl (fun db e => db.put (eventKey e.id) e) s.log, queue := es.map (fun e => { e with ts := ts })
               chunk := some (h, ts), written := s.written ++ es }
    else s
  | .send => match s.queue with
    | [] => s
    | e :: q => { s with queue := q, sent := s.sent ++ [e] }
  | .chunk => match s.queue, s.chunk with
    | [], some (h, ts) => { s with chunks := fun n => if n = h then some ts else s.chunks n, chunk := none }
    | _, _ => s
  | .forget h => { s with chunks := fun n => if n = h then none else s.chunks n }

/-- A subscription: the event types and first id asked for and the shards, in the order of the node's map. -/
structure SubRequest where
  types : List Int
  fromId : Option Nat
  shards : List Nat

/-- Where the task of a subscription is: reading the logs of the shards one after another, or following the channels;
a shard's channel is followed from the moment its own task has subscribed, at a position in what was sent. -/
inductive SubPhase where
  | replay (todo : List Nat) (token : Option Bytes) (last : Option (Nat × Nat))
  | live (pos : Nat → Option Nat)
  | stopped

/-- The node and one subscriber.  `ended`, `begun` and `lagged` are bookkeeping for stating properties: how many events
were written when the log of a shard had been read, how many were sent when its channel was subscribed, and whether the
subscriber was ever too slow for it. -/
structure SubNode where
  shards : Nat → EvShard := fun _ => {}
  phase : SubPhase
  out : List HEvent := []
  ended : Nat → Option Nat := fun _ => none
  begun : Nat → Option Nat := fun _ => none
  lagged : Nat → Bool := fun _ => false

/-- One step of the node or the subscriber. -/
inductive SubStep where
  | node (shard : Nat) (s : CommitStep)
  | page
  | begin (shard : Nat)
  | recv (shard : Nat)
  deriving DecidableEq, Repr

/-- `f` changed at one place. -/
def setAt {α : Type} (f : Nat → α) (i : Nat) (a : α) : Nat → α := fun j => if j = i then a else f j

/-- A subscription starts, server 1913-1921: without a first id the logs are not read. -/
def SubNode.start (req : SubRequest) (shards : Nat → EvShard) : SubNode where
  shards := shards
  phase := match req.fromId with
    | some _ => .replay req.shards none none
    | none => .live (fun _ => none)

/-- The events of the types asked for, server 1943-1949 and 1977. -/
def SubRequest.wants (req : SubRequest) (e : HEvent) : Bool := decide (e.ty ∈ req.types)

/-- One page of the old events, server 1922-1958. -/
def SubNode.readPage (req : SubRequest) (n : SubNode) : SubNode :=
  match n.phase with
  | .replay [] _ _ => { n with phase := .live (fun _ => none) }
  | .replay (i :: rest) token last =>
    match eventsFromStore (n.shards i).log (n.shards i).chunks i (req.fromId.getD 0) none { pageToken := token } last with
    | .error _ => { n with phase := .stopped }
    | .ok (p, last) =>
      { n with
        out := n.out ++ p.messages.filter req.wants
        phase := match p.nextPageToken with
          | some t => .replay (i :: rest) (some t) last
          | none => .replay rest none none
        ended := match p.nextPageToken with
          | some _ => n.ended
          | none => setAt n.ended i (some (n.shards i).written.length) }
  | _ => n

/-- A shard's task subscribes to its channel, server 1966-1974. -/
def SubNode.subscribeTo (req : SubRequest) (n : SubNode) (i : Nat) : SubNode :=
  match n.phase with
  | .live pos =>
    if i ∈ req.shards ∧ pos i = none then
      { n with phase := .live (setAt pos i (some (n.shards i).sent.length)), begun := setAt n.begun i (some (n.shards i).sent.length) }
    else n
  | _ => n

/-- A shard's task receives, server 1975-1998.  `cap` is the size of the broadcast channel (10 000, engine 148, which the
library rounds up): a receiver further behind gets an error, which is logged, and goes on with the oldest event kept. -/
def SubNode.receive (req : SubRequest) (cap : Nat) (n : SubNode) (i : Nat) : SubNode :=
  match n.phase with
  | .live pos =>
    match pos i with
    | none => n
    | some p =>
      let sent := (n.shards i).sent
      if p + cap < sent.length then
        { n with phase := .live (setAt pos i (some (sent.length - cap))), lagged := setAt n.lagged i true }
      else match sent[p]? with
        | none => n
        | some e =>
          { n with
            phase := .live (setAt pos i (some (p + 1)))
            out := n.out ++ (if req.wants e then [rewriteEvent e i none] else []) }
  | _ => n

/-- One step. -/
def SubNode.exec (req : SubRequest) (cap : Nat) (n : SubNode) : SubStep → SubNode
  | .node i s => { n with shards := setAt n.shards i ((n.shards i).step s) }
  | .page => n.readPage req
  | .begin i => n.subscribeTo req i
  | .recv i => n.receive req cap i

/-- A history. -/
def SubNode.run (req : SubRequest) (cap : Nat) (n : SubNode) (steps : List SubStep) : SubNode := steps.foldl (exec req cap) n

/-- `get_events`, server 2040-2105, for the shards of a request, in the order of the node's map; `num` is the number of
tokens expected (1, or the configured number of shards) and tokens are the decoded ones.  `zip` stops at the shorter
list.  The answer always carries a token. -/
def getEventsApi (shards : List (Nat × EvShard)) (num : Nat) (start : Nat) (stop : Option Nat) (size : Option Nat) (reverse : Bool)
    (tokens : Option (List (Option Bytes))) : Except HubErr (List HEvent × List (Option Bytes)) :=
  let tokens := tokens.getD (List.replicate num none)
  if tokens.length ≠ num then .error .invalidParameter
  else
    (shards.zip tokens).foldr (fun st acc =>
      match eventsFromStore st.1.2.log st.1.2.chunks st.1.1 start stop { pageSize := size, pageToken := st.2, reverse := reverse } none, acc with
      | .ok (p, _), .ok (es, ts) => .ok (p.messages ++ es, p.nextPageToken :: ts)
      | .error _, _ => .error .panic
      | .ok _, .error e => .error e) (.ok ([], []))

end Verif
