import Verif.Model.Event
import Verif.Model.Keys
/-!
The stores of decided blocks and shard chunks, and the pruning jobs.  `shard` in citations is
/repo/src/storage/store/shard.rs, `block` is /repo/src/storage/store/block.rs, `stores` is
/repo/src/storage/store/stores.rs.  The two stores are the same program but for their key prefix and the shard number in
the time index, so they are modelled once.  Throttling, progress reports and the prune lock (stores 767-777, which makes
a second prune of the same shard fail while one runs) are left out.
-/
namespace Verif

/-- The block store of shard 0 (prefix 1) and the chunk store of a data shard (prefix 2),
/repo/src/storage/constants.rs. -/
inductive BlockKind where
  | blocks
  | chunks
  deriving DecidableEq, Repr

/-- `RootPrefix::Block` and `RootPrefix::Shard`. -/
def BlockKind.pre : BlockKind → UInt8
  | .blocks => 1
  | .chunks => 2

/-- `BlockHeader` and `ShardHeader`, blocks.proto: the height (shard index and block number) and the timestamp. -/
structure BHead where
  height : Option (Nat × Nat)
  ts : Nat
  deriving DecidableEq, Repr

/-- `Block` and `ShardChunk`: the header, and the rest as bytes. -/
structure SBlock where
  head : Option BHead
  body : Bytes
  deriving DecidableEq, Repr

/-- A stored value: an encoded block, the primary key in a time index row, or a row of another store. -/
inductive BRow where
  | block (b : SBlock)
  | index (key : Bytes)
  | other (bytes : Bytes)
  deriving DecidableEq, Repr

/-- `Block::decode` and `ShardChunk::decode`.  Rows of other stores are not looked at. -/
def BRow.decode : BRow → Option SBlock
  | .block b => some b
  | _ => none

/-- The value of an index row, read as a key. -/
def BRow.asKey : BRow → Bytes
  | .block _ => []
  | .index k => k
  | .other v => v

/-- `make_shard_key`, shard 46-54; `make_block_key`, block 42-50. -/
def blockKey (kind : BlockKind) (n : Nat) : Bytes := kind.pre :: be 8 n

/-- `make_block_timestamp_index`, shard 56-61 and block 52-57. -/
def timeKey (shard ts : Nat) : Bytes := 18 :: (be 4 shard ++ be 8 ts)

/-- The end of the range: the given key or the next prefix byte, shard 77-83 and block 73-79. -/
def stopKey (kind : BlockKind) : Option Nat → Bytes
  | none => [kind.pre + 1]
  | some n => blockKey kind n

/-- The callback of a page scan, shard 89-100 and block 85-95. -/
def collectBlock (limit : Nat) (s : List SBlock × Bytes) (k : Bytes) (v : BRow) :
    Except HubErr ((List SBlock × Bytes) × Bool) :=
  match v.decode with
  | none => .error .decode
  | some b =>
    let bs := s.1 ++ [b]
    if bs.length ≥ limit then .ok ((bs, k), true) else .ok ((bs, s.2), false)

/-- `get_shard_page_by_prefix` as called by `get_shard_chunks_in_range`, shard 63-114 and 178-188;
`get_block_page_by_prefix` and `get_blocks_in_range`, block 59-108 and 149-160. -/
def blocksInRange (kind : BlockKind) (db : Db BRow) (po : PageOptions) (start : Nat) (stop : Option Nat) :
    Except HubErr (MessagesPage SBlock) :=
  match forEachPaged db (some (blockKey kind start)) (some (stopKey kind stop)) po
      (collectBlock (po.pageSize.getD eventPageSizeMax))
      (([], []) : List SBlock × Bytes) with
  | .error e => .error e
  | .ok ((bs, lastKey), _) =>
    .ok { messages := bs, nextPageToken := if lastKey.isEmpty then none else some lastKey }

/-- `get_first_or_last_shard_chunk`, shard 121-145; `get_first_or_last_block`, block 115-139. -/
def firstOrLast (kind : BlockKind) (db : Db BRow) (last : Bool) : Except HubErr (Option SBlock) :=
  match blocksInRange kind db { pageSize := some 1, reverse := last } 0 none with
  | .error e => .error e
  | .ok page => if page.messages.length > 1 then .error .invalidInternalState else .ok page.messages.head?

/-- The shard number in the time index, shard 168 and block 174. -/
def BlockKind.indexShard : BlockKind → Nat → Nat
  | .blocks, _ => 0
  | .chunks, s => s

/-- The batch of a put: the block, and the time index row unless that time has one. -/
def putBatch (kind : BlockKind) (db : Db BRow) (shard n ts : Nat) (b : SBlock) : Txn BRow :=
  let t : Txn BRow := Txn.stagePut OMap.empty (blockKey kind n) (.block b)
  match db.get (timeKey (kind.indexShard shard) ts) with
  | none => t.stagePut (timeKey (kind.indexShard shard) ts) (.index (blockKey kind n))
  | some _ => t

/-- `put_shard_chunk`, shard 155-176; `put_block`, block 162-185. -/
def putBlock (kind : BlockKind) (db : Db BRow) (b : SBlock) : Except HubErr (Db BRow) :=
  match b.head with
  | none => .error .invalidInternalState
  | some h => match h.height with
    | none => .error .invalidInternalState
    | some (shard, n) => .ok (Db.commit db (putBatch kind db shard n h.ts b))

/-- `get_chunk_by_height`, shard 213-229; `get_block_by_height`, block 211-226. -/
def blockByHeight (kind : BlockKind) (db : Db BRow) (n : Nat) : Except HubErr (Option SBlock) :=
  match db.get (blockKey kind n) with
  | none => .ok none
  | some v => match v.decode with
    | none => .error .decode
    | some b => .ok (some b)

/-- `min_block_number`, shard 231-243; block 229-240. -/
def minNumber (kind : BlockKind) (db : Db BRow) : Except HubErr Nat :=
  match firstOrLast kind db false with
  | .error e => .error e
  | .ok none => .error .notFound
  | .ok (some b) => match b.head with
    | none => .error .invalidInternalState
    | some h => match h.height with
      | none => .error .invalidInternalState
      | some (_, n) => .ok n

/-- `get_current_header`, shard 147-153; block 141-147. -/
def currentHeader (kind : BlockKind) (db : Db BRow) : Except HubErr (Option BHead) :=
  match firstOrLast kind db true with
  | .error e => .error e
  | .ok none => .ok none
  | .ok (some b) => .ok b.head

/-- `max_block_number`, shard 245-254; block 242-252. -/
def maxNumber (kind : BlockKind) (db : Db BRow) : Except HubErr Nat :=
  match currentHeader kind db with
  | .error e => .error e
  | .ok none => .ok 0
  | .ok (some h) => match h.height with
    | none => .ok 0
    | some (_, n) => .ok n

/-- `max_block_timestamp`, shard 256-262; block 254-261. -/
def maxTimestamp (kind : BlockKind) (db : Db BRow) : Except HubErr Nat :=
  match currentHeader kind db with
  | .error e => .error e
  | .ok none => .ok 0
  | .ok (some h) => .ok h.ts

/-- The loop of `get_shard_chunks`, shard 264-291, and of the `get_blocks` RPC, /repo/src/network/server.rs:1650-1679,
with an iteration budget (`none` = exhausted). -/
def allBlocks (kind : BlockKind) (db : Db BRow) (start : Nat) (stop : Option Nat) :
    Nat → Option Bytes → List SBlock → Option (Except HubErr (List SBlock))
  | 0, _, _ => none
  | fuel + 1, token, acc =>
    match blocksInRange kind db { pageSize := some 100, pageToken := token } start stop with
    | .error e => some (.error e)
    | .ok page => match page.nextPageToken with
      | none => some (.ok (acc ++ page.messages))
      | some t => allBlocks kind db start stop fuel (some t) (acc ++ page.messages)

/-- `get_next_height_by_timestamp`, shard 295-317; block 281-306 (with shard 0). -/
def nextHeight (shard : Nat) (db : Db BRow) (ts : Nat) : Except HubErr (Option Nat) :=
  match getNextByIndex db BRow.asKey [18] (timeKey shard ts) with
  | .error e => .error e
  | .ok none => .ok none
  | .ok (some v) => match v.decode with
    | none => .error .decode
    | some b => match b.head with
      | none => .error .invalidInternalState
      | some h => match h.height with
        | none => .error .invalidInternalState
        | some (_, n) => .ok (some n)

/-- `prune_until`, shard 322-350; block 311-333; with an iteration budget for the page loop. -/
def pruneUntil (kind : BlockKind) (fuel : Nat) (db : Db BRow) (stop : Nat) (po : PageOptions) :
    Option (Except HubErr (Db BRow × Nat)) :=
  deletePaginated (some (blockKey kind 0)) (some (blockKey kind stop)) po fuel db 0

/-! ### The jobs -/

/-- `pruning_cutoff`, /repo/src/jobs/block_pruning.rs:15-24. -/
def pruningCutoff (now retention : Nat) (syncComplete : Bool) : Option Nat :=
  if syncComplete then some (now - retention) else none

/-- One store in `block_pruning_job`, /repo/src/jobs/block_pruning.rs:51-75 (blocks) and `prune_shard_chunks_until`,
stores 779-801 (chunks): no height or an error finding it means no pruning. -/
def pruneBlocksJob (kind : BlockKind) (shard fuel : Nat) (db : Db BRow) (cutoff : Option Nat) :
    Option (Except HubErr (Db BRow × Nat)) :=
  match cutoff with
  | none => some (.ok (db, 0))
  | some ts => match nextHeight shard db ts with
    | .ok (some stop) => pruneUntil kind fuel db stop { pageSize := some eventPageSizeMax }
    | .ok none => some (.ok (db, 0))
    | .error _ => some (.ok (db, 0))

/-- One shard in `event_pruning_job`, /repo/src/jobs/event_pruning.rs:10-34 with `prune_events_until`, stores
716-738. -/
def pruneEventsJob (shard fuel : Nat) (db : Db BRow) (now retention : Nat) :
    Option (Except HubErr (Db BRow × Nat)) :=
  match nextHeight shard db (now - retention) with
  | .ok (some stop) => pruneEvents fuel db stop { pageSize := some eventPageSizeMax }
  | .ok none => some (.ok (db, 0))
  | .error _ => some (.ok (db, 0))

end Verif
