import Verif.Model.StoreTrie
import Verif.Model.TrieRead
import Verif.Model.Lending
/-!
Bootstrapping a node by replication: the server's pages (/repo/src/network/replication/replicator.rs:341-731) and the
importing client (/repo/src/bootstrap/replication/service.rs:645-1117), for one message store and the state trie of one
shard.

Simplifications.  On-chain events, names and messages of other stores are known by the trie keys their merge yields.
Signature checks (service.rs:902-903) are the subject of C46: the messages here are taken as signed.  Work on several
virtual shards is interleaved page by page: the locks are those of one page at a time.  The server's caches and
the engine's own copy of the trie (reloaded after every page, service.rs:977-984, and read only through the database) have
no observable effect.  Progress counters, the size limit of a write session and logging are left out; a page count that
does not match is only logged (service.rs:1091-1100).
-/
namespace Verif

/-- Why serving or importing failed: `ReplicationError` and `BootstrapError`, cut to what is told apart here. -/
inductive ReplErr where
  | trie (e : TrieErr)
  | store (e : HubErr)
  /-- a message type that is not replicated -/
  | invalidMessage
  | notFound
  | wrongShard
  | manyEvents
  | missingKey
  | noRoot
  | rootMismatch
  deriving DecidableEq, Repr

/-- What is sent with a trie key, `ShardTrieEntryWithMessage` in /repo/proto/definitions/replication.proto: a message
of the store, or something else. -/
inductive ReplItem where
  | message (m : Msg)
  | other (keys : List Bytes)
  deriving DecidableEq, Repr

structure ReplEntry where
  key : Bytes
  item : ReplItem
  deriving DecidableEq, Repr

/-- `FidAccountRootHash`. -/
structure AccountRoot where
  fid : Nat
  hash : Bytes
  count : Nat
  deriving DecidableEq, Repr

/-- `GetShardTransactionsResponse`. -/
structure ReplPage where
  entries : List ReplEntry
  roots : List AccountRoot
  next : Option Bytes

/-- What the two nodes share: the hashes, the order in which hash maps and sets yield their elements, the store, the
versions in force and whether channel messages are enabled at the snapshot. -/
structure ReplCfg where
  H : Bytes → Bytes
  ord : List UInt8 → List UInt8
  sha256 : Bytes → Bytes
  /-- the elements of a `HashSet` of keys, service.rs:899 and 908 -/
  hashSet : List Bytes → List Bytes
  D : StoreDef
  ctx : Nat → MergeCtx
  channels : Bool := true
  /-- step bound of the paging loop -/
  fuel : Nat

/-! ### The server -/

/-- A read-only snapshot to serve from: the database alone and a trie loaded from it, `open_snapshot` and
`new_timestamped_store`, /repo/src/network/replication/replication_stores.rs:120-189. -/
def StoreTrie.snapshot (s : StoreTrie) : StoreTrie :=
  { store := { db := s.store.db }
    trie := TrieState.initialize { s.trie with root := none, txn := OMap.empty } }

/-- `usize::MAX`, replicator.rs:355. -/
def usizeMax : Nat := 2 ^ 64 - 1

/-- The types `build_fid_user_message_type_cache` answers for, replicator.rs:362-489: not `None` (0), `FrameAction`
(13), `KeyAdd` (16) and `KeyRemove` (17), and channel messages only when enabled; 9, 10 and 22 on are no types. -/
def servedTypes (channels : Bool) : List Nat :=
  [1, 2, 3, 4, 5, 6, 7, 8, 11, 12, 14, 15] ++ if channels then [18, 19, 20, 21] else []

/-- One row of `get_messages_by_borrower_fid`, /repo/src/storage/store/account/storage_lend_store.rs:333-356. -/
def lendToRow (db : Db SVal) (key : Bytes) : Option Msg :=
  match readFidKey key 5, readFidKey key 1 with
  | some lender, some borrower =>
    match lendStore.getAdd db OMap.empty (lendPartial lender borrower) with
    | .ok (some m) => some m
    | _ => none
  | _, _ => none

/-- `get_messages_by_borrower_fid`, storage_lend_store.rs:312-361. -/
def lendsTo (db : Db SVal) (fid : Nat) : List Msg :=
  (scanRows db (22 :: makeFidKey fid) (incrementVec (22 :: makeFidKey fid)) false).filterMap (fun r => lendToRow db r.1)

namespace StoreDef
variable (D : StoreDef)

/-- A wire type the store handles. -/
def hasType (ty : Nat) : Bool :=
  ty = D.addType.num || (D.removeSupported && ty = D.removeType.num) || (D.compactSupported && ty = D.compactType.num)

/-- `get_compact_state_messages_by_fid`, store.rs:1312-1333, with the prefix of link_store.rs:568-576. -/
def getCompactByFid (db : Db SVal) (fid : Nat) (po : PageOptions) : Except HubErr (MessagesPage Msg) :=
  if !D.compactSupported then .error .invalidParameter
  else getMessagesPageByPrefix SVal.decodeMsg db (makeUserKey fid ++ [100]) po D.isCompact

/-- The messages of a user by type, replicator.rs:362-489, for the types of the store; all in one page. -/
def messagesOfType (db : Db SVal) (fid ty : Nat) : Except HubErr (List Msg) :=
  if ty = D.addType.num then
    match D.getAddsByFid db fid { pageSize := some usizeMax } with
    | .error e => .error e
    | .ok p => .ok (p.messages ++ if D.addType = .lendStorage then lendsTo db fid else [])
  else if ty = D.removeType.num then
    match D.getRemovesByFid db fid { pageSize := some usizeMax } with
    | .error e => .error e
    | .ok p => .ok p.messages
  else
    match D.getCompactByFid db fid { pageSize := some usizeMax } with
    | .error e => .error e
    | .ok p => .ok p.messages

end StoreDef

/-- The body of the server's loop over the keys, replicator.rs:556-707.  Messages of a user and type are put in a hash
map by hash: of two with one hash the later one stays. -/
def serveItem (c : ReplCfg) (db : Db SVal) (vts : UInt8) (key : Bytes) : Except ReplErr (Nat × ReplEntry) :=
  match decodeTrieKey key with
  | .error e => .error (.trie e)
  | .ok d =>
    if d.virtualShard ≠ vts then .error .wrongShard
    else
      match d.messageType with
      | none => .ok (d.fid, ⟨key, .other [key]⟩)
      | some ty =>
        if ty.toNat ∉ servedTypes c.channels then .error .invalidMessage
        else if c.D.hasType ty.toNat then
          match c.D.messagesOfType db d.fid ty.toNat with
          | .error e => .error (.store e)
          | .ok ms =>
            match ms.reverse.find? (fun m => m.hash = d.rest) with
            | some m => .ok (d.fid, ⟨key, .message m⟩)
            | none => .error .notFound
        else .ok (d.fid, ⟨key, .other [key]⟩)

/-- The loop, replicator.rs:556-707. -/
def serveItems (c : ReplCfg) (db : Db SVal) (vts : UInt8) : List Bytes → Except ReplErr (List (Nat × ReplEntry))
  | [] => .ok []
  | k :: ks =>
    match serveItem c db vts k with
    | .error e => .error e
    | .ok x =>
      match serveItems c db vts ks with
      | .error e => .error e
      | .ok xs => .ok (x :: xs)

/-- `MESSAGE_LIMIT`, replicator.rs:211. -/
def messageLimit : Nat := 1000

/-- `messages_for_trie_prefix`, replicator.rs:514-731.  The users of a page are collected in a hash set; the order of
their roots does not matter. -/
def servePage (c : ReplCfg) (s : StoreTrie) (vts : UInt8) (token : Option Bytes) : Except ReplErr ReplPage :=
  match s.trie.pageRequest c.fuel [vts] messageLimit token with
  | .error e => .error (.trie e)
  | .ok (keys, next) =>
    match serveItems c s.store.db vts keys with
    | .error e => .error e
    | .ok xs =>
      .ok { entries := xs.map (·.2),
            roots := (xs.map (·.1)).eraseDups.map (fun f =>
              ⟨f, s.trie.getHash c.H (trieKeyFid c.sha256 f), s.trie.getCount (trieKeyFid c.sha256 f)⟩),
            next := next }

/-! ### The client -/

namespace StoreDef
variable (D : StoreDef)

/-- `merge_compact_state` with `conflict_free`, store.rs:930-1017: the stored compact state is not looked at. -/
def mergeCompactFree (db : Db SVal) (ctx : MergeCtx) (m : Msg) : SM StoreEvent := do
  let _ ← SM.lift (D.compactKey m)
  let superseded ← SM.lift (D.compactionScan db ctx m)
  D.deleteMany superseded
  D.putCompact m
  SM.event (.merge m superseded)

/-- `merge_add` (1019-1065) and `merge_add_with_conflicts` (1067-1090) with `conflict_free` and without hub events. -/
def mergeAddFree (ctx : MergeCtx) (tsHash : Bytes) (m : Msg) : SM StoreEvent := do
  D.putAdd ctx tsHash m
  return .merge m []

/-- `merge_remove` (1092-1143) and `merge_remove_with_conflicts` (1145-1167), likewise. -/
def mergeRemoveFree (tsHash : Bytes) (m : Msg) : SM StoreEvent := do
  D.putRemove tsHash m
  return .merge m []

/-- `merge`, store.rs:804-835, with the options of service.rs:681-685: `conflict_free` and no saved hub events. -/
def mergeFree (db : Db SVal) (ctx : MergeCtx) (m : Msg) : SM StoreEvent := do
  if !D.isAdd m && !D.isRemove m && !D.isCompact m then SM.fail .validation
  else
    let th ← SM.lift (makeTsHash m.ts m.hash)
    if D.isCompact m then D.mergeCompactFree db ctx m
    else if D.isAdd m then D.mergeAddFree ctx th m
    else D.mergeRemoveFree th m

end StoreDef

/-- A lend of no units: merging it also prunes it, which makes two events (storage_lend_store.rs:376-388). -/
def Msg.lendsNothing (m : Msg) : Bool :=
  match m.body with
  | .lend _ 0 _ => true
  | _ => false

/-- `replay_replicator_message`, /repo/src/storage/store/engine.rs:599-663: the trie keys of the merge.  `dup` says
which items of others are refused as duplicates. -/
def replayItem (c : ReplCfg) (dup : Bytes → Bool) (st : StoreState) (e : ReplEntry) :
    Except ReplErr (List Bytes) × StoreState :=
  match e.item with
  | .other keys => if dup e.key then (.error (.store .duplicate), st) else (.ok keys, st)
  | .message m =>
    match c.D.mergeFree st.db (c.ctx m.ts) m st.pend with
    | (.error err, p) => (.error (.store err), { st with pend := p })
    | (.ok ev, p) =>
      if m.lendsNothing then (.error .manyEvents, { st with pend := p })
      else (.ok (trieKeysForEvent c.sha256 ev.hub).1, { st with pend := p })

/-- Where the loop over a page stands: the batch, the last user seen and the users whose root is due. -/
structure PageRun where
  store : StoreState
  lastFid : Option Nat
  check : List Nat

/-- The loop over the entries of a page, service.rs:906-953.  Duplicates are passed over. -/
def replayLoop (c : ReplCfg) (dup : Bytes → Bool) (vts : UInt8) : List ReplEntry → PageRun → Except ReplErr PageRun
  | [], r => .ok r
  | e :: es, r =>
    match decodeTrieKey e.key with
    | .error err => .error (.trie err)
    | .ok d =>
      match replayItem c dup r.store e with
      | (.error err, st) =>
        if err = .store .duplicate then replayLoop c dup vts es { r with store := st } else .error err
      | (.ok keys, st) =>
        if e.key ∉ keys then .error .missingKey
        else if fidShard c.sha256 d.fid ≠ vts then .error .wrongShard
        else if r.lastFid.getD d.fid < d.fid then
          replayLoop c dup vts es { store := st, lastFid := some d.fid, check := r.check ++ [r.lastFid.getD d.fid] }
        else replayLoop c dup vts es { r with store := st, lastFid := some (r.lastFid.getD d.fid) }

/-- `check_fid_roots`, service.rs:1049-1117.  The trie is read through the database and the pending batch. -/
def checkRoots (c : ReplCfg) (trie : TrieState) (roots : Nat → Option AccountRoot) (vts : UInt8) :
    List Nat → Except ReplErr Unit
  | [] => .ok ()
  | f :: fs =>
    if fidShard c.sha256 f ≠ vts then .error .wrongShard
    else
      match roots f with
      | none => .error .noRoot
      | some r =>
        if r.hash ≠ trie.getHash c.H (trieKeyFid c.sha256 f) then .error .rootMismatch
        else checkRoots c trie roots vts fs

/-- `ReplicationTriePartStatus`: the last user seen, the token of the next page, and whether all is done. -/
structure VtsStatus where
  lastFid : Option Nat := none
  token : Option Bytes := none
  finished : Bool := false
  deriving DecidableEq, Repr

/-- The importing node: the store, the trie, and the status rows and account roots by virtual shard
(/repo/src/storage/store/node_local_state.rs:176-260).  All are in one database in the code. -/
structure Replica where
  store : StoreState := {}
  trie : TrieState := TrieState.initialize {}
  status : UInt8 → VtsStatus := fun _ => {}
  roots : UInt8 → Nat → Option AccountRoot := fun _ _ => none

/-- The account roots of a page are written over the stored ones, service.rs:881-890. -/
def writeRoots (page : List AccountRoot) (old : Nat → Option AccountRoot) (f : Nat) : Option AccountRoot :=
  match page.reverse.find? (fun r => r.fid = f) with
  | some r => some r
  | none => old f

/-- Steps 3 to 10 of `process_vts_work_item`, service.rs:881-975: one page is merged, checked and committed at once. -/
def Replica.importPage (c : ReplCfg) (dup : Bytes → Bool) (vts : UInt8) (page : ReplPage) (r : Replica) : Except ReplErr Replica :=
  match replayLoop c dup vts page.entries
      { store := (r.store.exec c.D c.ctx .drop).exec c.D c.ctx (.block 0), lastFid := (r.status vts).lastFid, check := [] } with
  | .error e => .error e
  | .ok run =>
    match r.trie.insert c.H c.ord (c.hashSet (page.entries.map (·.key))) with
    | .error e => .error (.trie e)
    | .ok (t, _) =>
      match checkRoots c t (writeRoots page.roots (r.roots vts)) vts run.check with
      | .error e => .error e
      | .ok () => .ok
        { store := run.store.exec c.D c.ctx .commit
          trie := t.commit
          status := fun v => if v = vts then { lastFid := run.lastFid, token := page.next, finished := false } else r.status v
          roots := fun v => if v = vts then writeRoots page.roots (r.roots vts) else r.roots v }

/-- After the last page, service.rs:986-1010: the last user is checked and the virtual shard marked as finished, in a
second commit. -/
def Replica.finish (c : ReplCfg) (vts : UInt8) (r : Replica) : Except ReplErr Replica :=
  match checkRoots c r.trie (r.roots vts) vts (r.status vts).lastFid.toList with
  | .error e => .error e
  | .ok () => .ok { r with status := fun v => if v = vts then { r.status vts with finished := true } else r.status v }

/-- The node starts again: nothing pending survives, the trie is initialised from the database (service.rs:711-712). -/
def Replica.restart (c : ReplCfg) (r : Replica) : Replica :=
  { r with store := r.store.exec c.D c.ctx .drop, trie := TrieState.initialize { r.trie with root := none, txn := OMap.empty } }

/-- What happens on the importing node. -/
inductive ReplOp where
  /-- the next page of a virtual shard; finished ones are skipped (service.rs:721-724) -/
  | page (vts : UInt8) (dup : Bytes → Bool)
  /-- the same, but the node stops between the two commits of a last page, or after any other page -/
  | lost (vts : UInt8) (dup : Bytes → Bool)
  /-- the node stops, losing what it had not committed, and starts again -/
  | restart

/-- Fetch the page of a virtual shard from the source and import it. -/
def Replica.fetch (c : ReplCfg) (src : StoreTrie) (dup : Bytes → Bool) (vts : UInt8) (r : Replica) : Except ReplErr (Replica × Bool) :=
  match servePage c src vts (r.status vts).token with
  | .error e => .error e
  | .ok page =>
    match r.importPage c dup vts page with
    | .error e => .error e
    | .ok r' => .ok (r', page.next.isNone)

/-- One step of an import from a source. -/
def Replica.step (c : ReplCfg) (src : StoreTrie) (r : Replica) : ReplOp → Except ReplErr Replica
  | .restart => .ok (r.restart c)
  | .lost vts dup =>
    if (r.status vts).finished then .ok r
    else match r.fetch c src dup vts with
      | .error e => .error e
      | .ok (r', _) => .ok (r'.restart c)
  | .page vts dup =>
    if (r.status vts).finished then .ok r
    else match r.fetch c src dup vts with
      | .error e => .error e
      | .ok (r', last) => if last then r'.finish c vts else .ok r'

/-- A history. -/
def Replica.run (c : ReplCfg) (src : StoreTrie) : List ReplOp → Replica → Except ReplErr Replica
  | [], r => .ok r
  | o :: ops, r => match r.step c src o with
    | .error e => .error e
    | .ok r' => Replica.run c src ops r'

/-- An import from peers that answer as they like. -/
inductive PeerOp where
  /-- a page of a virtual shard as some peer sent it -/
  | page (vts : UInt8) (answer : ReplPage) (dup : Bytes → Bool)
  /-- the same, but the node stops right after the commit of the page -/
  | lost (vts : UInt8) (answer : ReplPage) (dup : Bytes → Bool)
  /-- the node stops and starts again -/
  | restart

/-- One step.  An error ends the import, service.rs:441-449 and 780-799; the node is then started again. -/
def Replica.peerStep (c : ReplCfg) (r : Replica) : PeerOp → Replica
  | .restart => r.restart c
  | .lost vts answer dup =>
    if (r.status vts).finished then r
    else match r.importPage c dup vts answer with
      | .error _ => r.restart c
      | .ok r' => r'.restart c
  | .page vts answer dup =>
    if (r.status vts).finished then r
    else match r.importPage c dup vts answer with
      | .error _ => r.restart c
      | .ok r' =>
        if answer.next.isNone then
          match r'.finish c vts with
          | .error _ => r'.restart c
          | .ok r'' => r''
        else r'

/-- `verify_shard_roots`, service.rs:1120-1160: the root of the trie in the database against the announced one. -/
def Replica.verify (c : ReplCfg) (r : Replica) (root : Bytes) : Bool :=
  decide ((TrieState.initialize { r.trie with root := none, txn := OMap.empty }).rootHash c.H = .ok root)

end Verif
