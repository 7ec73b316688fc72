import Verif.Model.Bytes
import Verif.Model.OMap
import Verif.Lemmas.Bytes
/-!
The key/value layer: database, transaction batches, iterators, pages and range deletion.
Models /repo/src/storage/db/rocksdb.rs and the paging helpers of
/repo/src/storage/store/account/message.rs.

Simplifications: the database is always open and writable, and never returns an I/O error, so the
`DbNotOpen`, `ReadOnly` and `InternalError` branches do not occur.
-/
namespace Verif

/-- `HubError` (/repo/src/core/error.rs): only the kind of error is kept. -/
inductive HubErr where
  | invalidParameter
  | invalidInternalState
  | notFound
  | internal
  | duplicate
  | conflict
  | validation
  | decode
  | overflow
  | panic
  deriving DecidableEq, Repr

deriving instance DecidableEq for Except

/-- A database: `RocksDB`, /repo/src/storage/db/rocksdb.rs:80-86.  Bytewise ordered rows. -/
abbrev Db (V : Type) := OMap Bytes V

/-- `RocksDbTransactionBatch`, /repo/src/storage/db/rocksdb.rs:33-35: key to `Some(value)` (a put) or
`None` (a delete). -/
abbrev Txn (V : Type) := OMap Bytes (Option V)

namespace Txn
variable {V : Type}

/-- `RocksDbTransactionBatch::put`, /repo/src/storage/db/rocksdb.rs:44-46. -/
def stagePut (t : Txn V) (k : Bytes) (v : V) : Txn V := OMap.put t k (some v)

/-- `RocksDbTransactionBatch::delete`, /repo/src/storage/db/rocksdb.rs:48-50. -/
def stageDel (t : Txn V) (k : Bytes) : Txn V := OMap.put t k none

/-- `RocksDbTransactionBatch::merge`, /repo/src/storage/db/rocksdb.rs:52-56. -/
def merge (t other : Txn V) : Txn V := other.rows.foldl (fun acc r => OMap.put acc r.1 r.2) t

/-- `RocksDbTransactionBatch::len`, /repo/src/storage/db/rocksdb.rs:58-60. -/
def len (t : Txn V) : Nat := t.rows.length

end Txn

namespace Db
variable {V : Type}

/-- One row of the commit loop, /repo/src/storage/db/rocksdb.rs:397-403. -/
def applyRow (db : Db V) (r : Bytes × Option V) : Db V :=
  match r.2 with
  | none => OMap.del db r.1
  | some v => OMap.put db r.1 v

/-- `RocksDB::commit`, /repo/src/storage/db/rocksdb.rs:377-410: apply the batch rows in ascending key
order, atomically. -/
def commit (db : Db V) (t : Txn V) : Db V := t.rows.foldl applyRow db

end Db

/-- `get_from_db_or_txn`, /repo/src/storage/store/account/message.rs:197-207. -/
def getFromDbOrTxn {V : Type} (db : Db V) (t : Txn V) (k : Bytes) : Option V :=
  match t.get k with
  | some v => v
  | none => db.get k

/-- `PageOptions`, /repo/src/storage/db/rocksdb.rs:99-104. -/
structure PageOptions where
  pageSize : Option Nat := none
  pageToken : Option Bytes := none
  reverse : Bool := false
  deriving DecidableEq, Repr

/-- `get_iterator_options`, /repo/src/storage/db/rocksdb.rs:441-487: the inclusive lower and exclusive
upper bound of the iterator. -/
def iterBounds (start stop : Option Bytes) (po : PageOptions) : Bytes × Bytes :=
  let startP := match start with | none => [] | some p => p
  let stopP := match stop with | none => List.replicate 32 255 | some p => p
  let upper := if po.reverse then
      match po.pageToken with | some t => t | none => stopP
    else stopP
  let lower := if po.reverse then startP else
      match po.pageToken with | some t => t ++ [0] | none => startP
  (lower, upper)

/-- The rows an iterator with bounds `[lo, hi)` visits (`raw_iterator_opt` with
`set_iterate_lower_bound`/`set_iterate_upper_bound`), in visiting order:
/repo/src/storage/db/rocksdb.rs:479-486 and 522-528, 548-552. -/
def scanRows {V : Type} (db : Db V) (lo hi : Bytes) (reverse : Bool) : List (Bytes × V) :=
  let rows := db.rows.filter (fun r => !Bytes.blt r.1 lo && Bytes.blt r.1 hi)
  if reverse then rows.reverse else rows

/-- The loop of `iterate_with_opts`, /repo/src/storage/db/rocksdb.rs:530-555.  `f` gets the caller's
state, key and value and returns the new state and whether to stop.  The returned flag is
`all_done`. -/
def iterate {V σ : Type} (pageSize : Option Nat)
    (f : σ → Bytes → V → Except HubErr (σ × Bool)) :
    List (Bytes × V) → Nat → σ → Except HubErr (σ × Bool)
  | [], _, s => .ok (s, true)
  | (k, v) :: rest, count, s =>
    match f s k v with
    | .error e => .error e
    | .ok (s', true) => .ok (s', false)
    | .ok (s', false) =>
      match pageSize with
      | some limit => if count + 1 ≥ limit then .ok (s', true) else iterate pageSize f rest (count + 1) s'
      | none => iterate pageSize f rest count s'

/-- `for_each_iterator_by_prefix_paged`, /repo/src/storage/db/rocksdb.rs:493-505. -/
def forEachPaged {V σ : Type} (db : Db V) (start stop : Option Bytes) (po : PageOptions)
    (f : σ → Bytes → V → Except HubErr (σ × Bool)) (s : σ) : Except HubErr (σ × Bool) :=
  let b := iterBounds start stop po
  iterate po.pageSize f (scanRows db b.1 b.2 po.reverse) 0 s

/-- `for_each_iterator_by_prefix`, /repo/src/storage/db/rocksdb.rs:599-622: as above without a row
limit. -/
def forEachByPrefix {V σ : Type} (db : Db V) (start stop : Option Bytes) (po : PageOptions)
    (f : σ → Bytes → V → Except HubErr (σ × Bool)) (s : σ) : Except HubErr (σ × Bool) :=
  forEachPaged db start stop { po with pageSize := none } f s

/-- `count_keys_at_prefix`, /repo/src/storage/db/rocksdb.rs:678-708.  The `u32` counter is a `Nat`. -/
def countKeysAtPrefix {V : Type} (db : Db V) (p : Bytes) : Nat :=
  let b := iterBounds (some p) (some (incrementVec p)) {}
  (scanRows db b.1 b.2 false).length

/-- `get_next_by_index`, /repo/src/storage/db/rocksdb.rs:712-738: the first index row at or after
`start`, below the successor of the index prefix; its value `asKey v` is the primary key. -/
def getNextByIndex {V : Type} (db : Db V) (asKey : V → Bytes) (indexPrefix start : Bytes) :
    Except HubErr (Option V) :=
  match forEachByPrefix db (some start) (some (incrementVec indexPrefix)) { pageSize := some 1 }
      (fun (_ : Option Bytes) _ v => .ok (some (asKey v), true)) none with
  | .error e => .error e
  | .ok (none, _) => .ok none
  | .ok (some pk, _) =>
    match db.get pk with
    | some v => .ok (some v)
    | none => .error .notFound

/-- `delete_page`, /repo/src/storage/db/rocksdb.rs:746-766.  The `skip_cache` flag only affects the
block cache and is dropped.  Returns the new database and the number of rows deleted. -/
def deletePage {V : Type} (db : Db V) (start stop : Option Bytes) (po : PageOptions) :
    Except HubErr (Db V × Nat) :=
  match forEachPaged db start stop po
      (fun (t : Txn V) k _ => .ok (t.stageDel k, false)) OMap.empty with
  | .error e => .error e
  | .ok (t, _) => .ok (Db.commit db t, t.len)

/-- The loop of `delete_paginated`, /repo/src/storage/db/rocksdb.rs:775-803, with an iteration budget
(`none` = budget exhausted).  Throttling and the progress callback are dropped. -/
def deletePaginated {V : Type} (start stop : Option Bytes) (po : PageOptions) :
    Nat → Db V → Nat → Option (Except HubErr (Db V × Nat))
  | 0, _, _ => none
  | fuel + 1, db, total =>
    match deletePage db start stop po with
    | .error e => some (.error e)
    | .ok (db', 0) => some (.ok (db', total))
    | .ok (db', n + 1) => deletePaginated start stop po fuel db' (total + (n + 1))

/-- `require_page_token_in_prefix`, /repo/src/storage/store/account/message.rs:221-231. -/
def requirePageTokenInPrefix (p : Bytes) (po : PageOptions) : Except HubErr Unit :=
  match po.pageToken with
  | some t => if p.isPrefixOf t then .ok () else .error .invalidParameter
  | none => .ok ()

/-- `PAGE_SIZE_MAX` of /repo/src/storage/store/account/store.rs:25, used by the message pages. -/
def pageSizeMax : Nat := 10000

/-- `MessagesPage`, /repo/src/storage/store/account/message.rs. -/
structure MessagesPage (M : Type) where
  messages : List M
  nextPageToken : Option Bytes
  deriving Repr, DecidableEq

/-- `get_messages_page_by_prefix`, /repo/src/storage/store/account/message.rs:273-318.  `decode` is
`message_decode`. -/
def getMessagesPageByPrefix {V M : Type} (decode : V → Option M) (db : Db V) (p : Bytes)
    (po : PageOptions) (filter : M → Bool) : Except HubErr (MessagesPage M) :=
  match forEachByPrefix db (some p) (some (incrementVec p)) po
      (fun (s : List M × Bytes) k v =>
        match decode v with
        | none => .error .decode
        | some m =>
          if filter m then
            let msgs := s.1 ++ [m]
            if msgs.length ≥ po.pageSize.getD pageSizeMax then .ok ((msgs, k), true)
            else .ok ((msgs, s.2), false)
          else .ok (s, false))
      (([], []) : List M × Bytes) with
  | .error e => .error e
  | .ok ((msgs, lastKey), _) =>
    .ok { messages := msgs, nextPageToken := if lastKey.isEmpty then none else some lastKey }

end Verif
