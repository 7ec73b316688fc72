import Verif.Model.BlockEvents
/-!
The engine of a data shard: proposing, validating and committing chunks.  Models `prepare_proposal`,
`propose_state_change`, `replay_proposal`, `replay_snapchain_txn`, `validate_state_change`, `is_cached_txn_valid`,
`commit_shard_chunk`, `commit_and_emit_events` and the simulations of /repo/src/storage/store/engine.rs (below: engine).

The steps that merge one item into the stores are the parameters `EngineOps`; they are modelled one by one in the
other files.  What is concrete here is the control flow around them: sorting, gating, sequencing, which results are
kept, compared, cached and written.  Simplification: every replay starts with a fresh event id counter; `start_round`
and `validate_state_change` reset it (403-408, 2364-2366), a second `propose` in one round would not.
-/
namespace Verif

/-- `ValidatorMessage`, /repo/proto/definitions/blocks.proto:207-211. -/
structure SysMsg (F : Type) where
  onchain : Option OEvent
  fname : Option F
  block : Option BEvent

/-- `Transaction`, blocks.proto:192-197. -/
structure ETxn (F : Type) where
  fid : Nat
  sys : List (SysMsg F)
  user : List Msg
  root : Bytes

/-- `ShardChunk`, blocks.proto:178-190, without the parent hash and the commits. -/
structure EChunk (F : Type) where
  height : Nat
  ts : Nat
  root : Bytes
  txns : List (ETxn F)
  hash : Bytes

/-- What a node adds of its own: its wall clock (read by the storage limits, /repo/src/storage/store/account/
onchain_event_store.rs:1027) and the order in which its hash sets happen to be iterated (engine 1504 and 1624). -/
structure NodeEnv where
  clock : Nat
  signerOrder : List Bytes → List Bytes
  typeOrder : List MessageType → List MessageType

/-- The steps on the stores.  `D` is the committed state, `W` the work in progress: the batch, the trie in memory and
the event id counter; `E` is a hub event.  Each step that merges also updates the trie; an `error` is an error that
the caller propagates, errors that are only logged leave the result `none` or empty. -/
structure EngineOps (D W E F : Type) where
  /-- an empty batch, the trie loaded from the committed state, the counter at a height -/
  start : D → Nat → W
  /-- `merge_onchain_event` and `update_trie`, engine 1289-1314 -/
  onchain : EngineVersion → D → W → OEvent → Except HubErr (W × Option E)
  /-- `should_revoke_signer`, engine 1300-1307 and 3047: the key to revoke -/
  revokes : EngineVersion → OEvent → Option Bytes
  /-- the fname transfer arm, engine 1316-1398 -/
  fname : D → W → F → Except HubErr (W × List E)
  /-- `handle_block_event`, engine 732-979, and `replayed_verification_prune_type`, 724-730 -/
  blockEvent : EngineVersion → D → W → BEvent → Except HubErr (W × Option (List E × Option MessageType))
  /-- `revoke_messages` and `update_trie`, engine 1505-1526 -/
  revoke : D → W → Nat → Bytes → Except HubErr (W × List E)
  /-- `get_message_priority`, engine 1532-1552 -/
  priority : Msg → Nat
  /-- `validate_user_message`, `merge_message` and the merge failure event, engine 1567-1621 -/
  user : EngineVersion → Nat → D → W → Msg → Except HubErr (W × List E × Option HubErr)
  /-- `prune_messages` and `update_trie`, engine 1625-1645 -/
  prune : Nat → EngineVersion → D → W → Nat → MessageType → Except HubErr (W × List E)
  /-- `handle_delete_side_effects` and `update_trie`, engine 1648-1662 -/
  sideEffects : EngineVersion → D → W → List E → Except HubErr (W × List E)
  /-- `get_hash` of the user's subtree, engine 1664-1667 -/
  accountRoot : D → W → Nat → Except HubErr Bytes
  /-- `root_hash`, engine 385 and 579 -/
  root : W → Except HubErr Bytes
  /-- `get_storage_slot_for_fid(..).is_active()`, engine 325-343; `none` is a failing read -/
  active : Nat → EngineVersion → D → ETxn F → Option Bool
  /-- the `BlockConfirmed` event, engine 2430-2449; `none` is the panic of its `unwrap` -/
  confirm : D → W → EChunk F → List E → Nat → Option W
  /-- `db.commit`, engine 2463 -/
  write : D → W → D

section
variable {D W E F : Type}

/-- The comparison of system messages, engine 1256-1267. -/
def sysLe (a b : SysMsg F) : Bool :=
  match a.onchain, b.onchain with
  | some x, some y => decide (x.block < y.block) || (decide (x.block = y.block) && decide (x.log ≤ y.log))
  | some _, none => true
  | none, some _ => false
  | none, none => true

/-- A step of `stableSort`: `a` goes before the first element that is not smaller. -/
def stableInsert {α : Type} (le : α → α → Bool) (a : α) : List α → List α
  | [] => [a]
  | b :: l => if le a b then a :: b :: l else b :: stableInsert le a l

/-- `slice::sort_by` of the Rust library, as used in engine 1256 and 1531: the stable sort, which is unique for a
total preorder. -/
def stableSort {α : Type} (le : α → α → Bool) : List α → List α
  | [] => []
  | a :: l => stableInsert le a (stableSort le l)

/-- `sorted_system_messages`, engine 1253-1267. -/
def sysSort (l : List (SysMsg F)) : List (SysMsg F) := stableSort sysLe l

/-- `sorted_user_messages`, engine 1529-1564: by priority and timestamp. -/
def userSort (ops : EngineOps D W E F) (l : List Msg) : List Msg :=
  stableSort (fun a b => decide (ops.priority a < ops.priority b) ||
    (decide (ops.priority a = ops.priority b) && decide (a.ts ≤ b.ts))) l

/-- The variables of `replay_snapchain_txn`, engine 1234-1249. -/
structure RLoop (W E : Type) where
  w : W
  ev : Txn BEvent
  seq : Nat
  events : List E
  errs : List HubErr
  signers : List Bytes
  types : List MessageType

/-- The two `continue`s at the head of the loop: engine 1269-1287. -/
def sysSkipped (v : EngineVersion) (m : SysMsg F) : Bool :=
  match m.onchain with
  | none => false
  | some e => (e.ty == 5 && !v.isEnabled .farcasterPro) || (e.ty == 6 && !v.isEnabled .channelRegistrations)

/-- The on-chain part of the loop, engine 1289-1315.  A key is inserted once (`HashSet`). -/
def sysOnchain (ops : EngineOps D W E F) (v : EngineVersion) (d : D) (s : RLoop W E) (m : SysMsg F) :
    Except HubErr (RLoop W E) :=
  match m.onchain with
  | none => .ok s
  | some e =>
    match ops.onchain v d s.w e with
    | .error err => .error err
    | .ok (w, none) => .ok { s with w := w }
    | .ok (w, some ev) =>
      .ok { s with
        w := w, events := s.events ++ [ev]
        signers := match ops.revokes v e with
          | some k => if k ∈ s.signers then s.signers else s.signers ++ [k]
          | none => s.signers }

/-- The fname part of the loop, engine 1316-1398. -/
def sysFname (ops : EngineOps D W E F) (d : D) (s : RLoop W E) (m : SysMsg F) : Except HubErr (RLoop W E) :=
  match m.fname with
  | none => .ok s
  | some f =>
    match ops.fname d s.w f with
    | .error err => .error err
    | .ok (w, es) => .ok { s with w := w, events := s.events ++ es }

/-- `message_types_to_prune.insert`, engine 1246, 1430 and 1585: a `HashSet`. -/
def insertType (l : List MessageType) (t : MessageType) : List MessageType := if t ∈ l then l else l ++ [t]

/-- The block event part of the loop, engine 1400-1501.  `seqnum()` panics without data
(/repo/proto/src/lib.rs:91-93).  The counter is a `u64` and wraps. -/
def sysBlock (ops : EngineOps D W E F) (v : EngineVersion) (d : D) (s : RLoop W E) (m : SysMsg F) :
    Except HubErr (RLoop W E) :=
  match m.block with
  | none => .ok s
  | some b =>
    if !v.isEnabled .readDataFromShardZero then .ok s
    else
      match b.data with
      | none => .error .panic
      | some data =>
        if data.seqnum = (s.seq + 1) % 2 ^ 64 then
          let ev := s.ev.stagePut (blockEventKey data.seqnum) b
          let seq := (s.seq + 1) % 2 ^ 64
          match ops.blockEvent v d s.w b with
          | .error err => .error err
          | .ok (w, none) => .ok { s with w := w, ev := ev, seq := seq }
          | .ok (w, some (es, t)) =>
            .ok { s with
              w := w, ev := ev, seq := seq, events := s.events ++ es
              types := match t with | some t => insertType s.types t | none => s.types }
        else .ok s

/-- One iteration over the system messages, engine 1268-1502. -/
def sysStep (ops : EngineOps D W E F) (v : EngineVersion) (d : D) (s : RLoop W E) (m : SysMsg F) :
    Except HubErr (RLoop W E) :=
  if sysSkipped v m then .ok s
  else
    match sysOnchain ops v d s m with
    | .error e => .error e
    | .ok s =>
      match sysFname ops d s m with
      | .error e => .error e
      | .ok s => sysBlock ops v d s m

/-- A `for` loop whose body may leave with `?`, as in engine 359-374, 550-577 and 1268-1502. -/
def foldE {α σ : Type} (f : σ → α → Except HubErr σ) : σ → List α → Except HubErr σ
  | s, [] => .ok s
  | s, a :: l =>
    match f s a with
    | .error e => .error e
    | .ok s => foldE f s l

/-- Revoking one signer, engine 1504-1527. -/
def revokeStep (ops : EngineOps D W E F) (d : D) (fid : Nat) (s : RLoop W E) (k : Bytes) : Except HubErr (RLoop W E) :=
  match ops.revoke d s.w fid k with
  | .error e => .error e
  | .ok (w, es) => .ok { s with w := w, events := s.events ++ es }

/-- One user message, engine 1566-1622. -/
def userStep (ops : EngineOps D W E F) (v : EngineVersion) (ts : Nat) (d : D) (s : RLoop W E) (m : Msg) :
    Except HubErr (RLoop W E) :=
  match ops.user v ts d s.w m with
  | .error e => .error e
  | .ok (w, es, none) => .ok { s with w := w, events := s.events ++ es, types := insertType s.types m.ty }
  | .ok (w, es, some err) => .ok { s with w := w, events := s.events ++ es, errs := s.errs ++ [err] }

/-- Pruning one type, engine 1624-1646. -/
def pruneStep (ops : EngineOps D W E F) (env : NodeEnv) (v : EngineVersion) (d : D) (fid : Nat) (s : RLoop W E)
    (t : MessageType) : Except HubErr (RLoop W E) :=
  match ops.prune env.clock v d s.w fid t with
  | .error e => .error e
  | .ok (w, es) => .ok { s with w := w, events := s.events ++ es }

/-- The result of `replay_snapchain_txn`, engine 1692-1698: account root, events, errors, last block event number. -/
structure TxnResult (W E : Type) where
  w : W
  ev : Txn BEvent
  seq : Nat
  root : Bytes
  events : List E
  errs : List HubErr

/-- `replay_snapchain_txn`, engine 1225-1699. -/
def replayTxn (ops : EngineOps D W E F) (env : NodeEnv) (v : EngineVersion) (ts : Nat) (d : D) (w : W)
    (ev : Txn BEvent) (seq : Nat) (t : ETxn F) : Except HubErr (TxnResult W E) :=
  match foldE (sysStep ops v d) ⟨w, ev, seq, [], [], [], []⟩ (sysSort t.sys) with
  | .error e => .error e
  | .ok s =>
    match foldE (revokeStep ops d t.fid) s (env.signerOrder s.signers) with
    | .error e => .error e
    | .ok s =>
      match foldE (userStep ops v ts d) s (userSort ops t.user) with
      | .error e => .error e
      | .ok s =>
        match foldE (pruneStep ops env v d t.fid) s (env.typeOrder s.types) with
        | .error e => .error e
        | .ok s =>
          match ops.sideEffects v d s.w s.events with
          | .error e => .error e
          | .ok (w, es) =>
            match ops.accountRoot d w t.fid with
            | .error e => .error e
            | .ok root => .ok ⟨w, s.ev, s.seq, root, s.events ++ es, s.errs⟩

/-- `CachedTransaction`, engine 160-167. -/
structure Cached (W E : Type) where
  root : Bytes
  events : List E
  w : W
  ev : Txn BEvent
  seq : Nat
  eventsHash : Bytes

/-- A data shard node: the committed state, the block event rows and the chunk rows of its database, and
`pending_txn` in memory. -/
structure EngineState (D W E F : Type) where
  d : D
  ev : Db BEvent
  chunks : Db (EChunk F)
  pending : Option (Cached W E)

/-- What the loops over the transactions of a chunk accumulate, engine 356-374 and 522-577. -/
structure PLoop (W E F : Type) where
  w : W
  ev : Txn BEvent
  seq : Nat
  events : List E
  errs : List HubErr
  txns : List (ETxn F)

/-- One transaction of `prepare_proposal`, engine 359-374: the account root is filled in. -/
def proposeStep (ops : EngineOps D W E F) (env : NodeEnv) (v : EngineVersion) (ts : Nat) (d : D) (s : PLoop W E F)
    (t : ETxn F) : Except HubErr (PLoop W E F) :=
  match replayTxn ops env v ts d s.w s.ev s.seq t with
  | .error e => .error e
  | .ok r => .ok ⟨r.w, r.ev, r.seq, s.events ++ r.events, s.errs ++ r.errs, s.txns ++ [{ t with root := r.root }]⟩

/-- The transactions a proposer keeps, engine 321-354: user messages of users without storage are dropped, empty
transactions and failing reads too. -/
def proposeFilter (ops : EngineOps D W E F) (env : NodeEnv) (v : EngineVersion) (d : D) (t : ETxn F) :
    Option (ETxn F) :=
  match ops.active env.clock v d t with
  | none => none
  | some a =>
    let t := if a then t else { t with user := [] }
    if t.sys.isEmpty && t.user.isEmpty then none else some t

/-- `ShardStateChange`, engine 386-394: the timestamp, the new root and the transactions with their account roots. -/
structure Proposal (F : Type) where
  ts : Nat
  root : Bytes
  txns : List (ETxn F)

/-- `compute_block_events_hash`, engine 2600-2616. -/
def txnEventsHash (H : Bytes → Bytes) (txns : List (ETxn F)) : Bytes :=
  eventsHash H ((txns.flatMap (·.sys)).filterMap (·.block))

/-- `prepare_proposal` and `propose_state_change`, engine 306-456.  `txns` are the transactions made from the mempool;
grouping and order are the proposer's choice.  `none` is a panic.  Afterwards the trie is reloaded, so nothing but
`pending` changes. -/
def propose (ops : EngineOps D W E F) (H : Bytes → Bytes) (ver : Nat → EngineVersion) (env : NodeEnv)
    (st : EngineState D W E F) (height ts : Nat) (txns : List (ETxn F)) : Option (Proposal F × EngineState D W E F) :=
  let v := ver ts
  let kept := txns.filterMap (proposeFilter ops env v st.d)
  match maxSeqnum some st.ev with
  | .error _ => none
  | .ok seq =>
    match foldE (proposeStep ops env v ts st.d) ⟨ops.start st.d height, OMap.empty, seq, [], [], []⟩ kept with
    | .error _ => none
    | .ok s =>
      match ops.root s.w with
      | .error _ => none
      | .ok root =>
        some (⟨ts, root, s.txns⟩,
          { st with pending := some ⟨root, s.events, s.w, s.ev, s.seq, txnEventsHash H s.txns⟩ })

/-- One transaction of `replay_proposal`, engine 550-577. -/
def replayStep (ops : EngineOps D W E F) (env : NodeEnv) (v : EngineVersion) (ts : Nat) (d : D) (s : PLoop W E F)
    (t : ETxn F) : Except HubErr (PLoop W E F) :=
  match replayTxn ops env v ts d s.w s.ev s.seq t with
  | .error e => .error e
  | .ok r =>
    if r.root ≠ t.root then .error .invalidInternalState
    else .ok ⟨r.w, r.ev, r.seq, s.events ++ r.events, s.errs ++ r.errs, s.txns ++ [t]⟩

/-- `replay_proposal`, engine 511-597.  The check of the parent root only warns. -/
def replayProposal (ops : EngineOps D W E F) (env : NodeEnv) (v : EngineVersion) (st : EngineState D W E F)
    (height ts : Nat) (txns : List (ETxn F)) (root : Bytes) : Except HubErr (PLoop W E F) :=
  match maxSeqnum some st.ev with
  | .error e => .error e
  | .ok seq =>
    match foldE (replayStep ops env v ts st.d) ⟨ops.start st.d height, OMap.empty, seq, [], [], []⟩ txns with
    | .error e => .error e
    | .ok s =>
      match ops.root s.w with
      | .error e => .error e
      | .ok r => if r ≠ root then .error .invalidInternalState else .ok s

/-- `validate_state_change`, engine 2342-2411.  A panic inside counts as a rejection here. -/
def validateChange (ops : EngineOps D W E F) (H : Bytes → Bytes) (ver : Nat → EngineVersion) (env : NodeEnv)
    (st : EngineState D W E F) (height : Nat) (p : Proposal F) : Bool × EngineState D W E F :=
  match replayProposal ops env (ver p.ts) st height p.ts p.txns p.root with
  | .error _ => (false, st)
  | .ok s => (true, { st with pending := some ⟨p.root, s.events, s.w, s.ev, s.seq, txnEventsHash H p.txns⟩ })

/-- `is_cached_txn_valid`, engine 2618-2659. -/
def cachedValid (H : Bytes → Bytes) (c : Cached W E) (root : Bytes) (txns : List (ETxn F)) : Bool :=
  decide (c.root = root) && decide (txnEventsHash H txns = c.eventsHash)

/-- The key of a chunk, /repo/src/storage/store/shard.rs:46-54. -/
def chunkKey (height : Nat) : Bytes := 2 :: be 8 height

/-- The first write of a commit, engine 2430-2463: the staged rows with the `BlockConfirmed` event. -/
def commitState (ops : EngineOps D W E F) (st : EngineState D W E F) (c : EChunk F) (events : List E) (seq : Nat)
    (w : W) (ev : Txn BEvent) : Option (EngineState D W E F) :=
  match ops.confirm st.d w c events seq with
  | none => none
  | some w => some { st with d := ops.write st.d w, ev := st.ev.commit ev }

/-- The second write, `put_shard_chunk`, engine 2470-2476. -/
def commitChunk (st : EngineState D W E F) (c : EChunk F) : EngineState D W E F :=
  { st with chunks := st.chunks.put (chunkKey c.height) c }

/-- What `commit_shard_chunk`, engine 2661-2731, is about to write: the cached result if it fits, otherwise the result
of replaying.  `none` is the panic. -/
def commitSource (ops : EngineOps D W E F) (H : Bytes → Bytes) (ver : Nat → EngineVersion) (env : NodeEnv)
    (st : EngineState D W E F) (c : EChunk F) : Option (List E × Nat × W × Txn BEvent) :=
  match st.pending with
  | some p =>
    if cachedValid H p c.root c.txns then some (p.events, p.seq, p.w, p.ev)
    else
      match replayProposal ops env (ver c.ts) st c.height c.ts c.txns c.root with
      | .error _ => none
      | .ok s => some (s.events, s.seq, s.w, s.ev)
  | none =>
    match replayProposal ops env (ver c.ts) st c.height c.ts c.txns c.root with
    | .error _ => none
    | .ok s => some (s.events, s.seq, s.w, s.ev)

/-- The first half of `commit_shard_chunk`, engine 2661-2731 with 2421-2463: up to and including the first write. -/
def commitFirst (ops : EngineOps D W E F) (H : Bytes → Bytes) (ver : Nat → EngineVersion) (env : NodeEnv)
    (st : EngineState D W E F) (c : EChunk F) : Option (EngineState D W E F) :=
  match commitSource ops H ver env st c with
  | none => none
  | some (events, seq, w, ev) => commitState ops st c events seq w ev

/-- `commit_shard_chunk`, engine 2661-2731. -/
def commit (ops : EngineOps D W E F) (H : Bytes → Bytes) (ver : Nat → EngineVersion) (env : NodeEnv)
    (st : EngineState D W E F) (c : EChunk F) : Option (EngineState D W E F) :=
  (commitFirst ops H ver env st c).map (commitChunk · c)

/-- `start_round`, engine 403-408. -/
def startRound (st : EngineState D W E F) : EngineState D W E F := { st with pending := none }

/-- The trie in memory after a dry run. -/
inductive TrieMem where
  | reloaded
  | touched
  deriving DecidableEq, Repr

/-- `simulate_message`, engine 2733-2776: a transaction with the one message; the first validation error is reported.
The trie is reloaded only if the replay returns.  Nothing is written. -/
def simulate (ops : EngineOps D W E F) (ver : Nat → EngineVersion) (env : NodeEnv) (st : EngineState D W E F)
    (height ts : Nat) (m : Msg) : Except HubErr Unit × TrieMem :=
  let seq := match maxSeqnum some st.ev with | .ok n => n | .error _ => 0
  match replayTxn ops env (ver ts) ts st.d (ops.start st.d height) OMap.empty seq ⟨m.fid, [], [m], []⟩ with
  | .error _ => (.error .invalidInternalState, .touched)
  | .ok r =>
    match r.errs with
    | e :: _ => (.error e, .reloaded)
    | [] => (.ok (), .reloaded)

/-- One group of `simulate_bulk_messages`, engine 2804-2845: the work so far, the counter and the verdict for all
messages of the user.  Simplification: what a failing replay staged is dropped. -/
def simulateGroup (ops : EngineOps D W E F) (v : EngineVersion) (env : NodeEnv) (ts : Nat) (d : D) (w : W)
    (ev : Txn BEvent) (seq : Nat) (fid : Nat) (ms : List Msg) : W × Txn BEvent × Nat × Except HubErr Unit :=
  match replayTxn ops env v ts d w ev seq ⟨fid, [], ms, []⟩ with
  | .error _ => (w, ev, seq, .error .invalidInternalState)
  | .ok r => (r.w, r.ev, r.seq, match r.errs with | e :: _ => .error e | [] => .ok ())

/-- The groups one after another on one batch, engine 2803-2845; `fids` is the order in which the hash map is
walked. -/
def simulateGroups (ops : EngineOps D W E F) (v : EngineVersion) (env : NodeEnv) (ts : Nat) (d : D) (msgs : List Msg) :
    List Nat → W → Txn BEvent → Nat → List (Nat × Except HubErr Unit)
  | [], _, _, _ => []
  | f :: fids, w, ev, seq =>
    let r := simulateGroup ops v env ts d w ev seq f (msgs.filter (fun m => m.fid == f))
    (f, r.2.2.2) :: simulateGroups ops v env ts d msgs fids r.1 r.2.1 r.2.2.1

/-- `simulate_bulk_messages`, engine 2778-2859: one verdict per message. -/
def simulateBulk (ops : EngineOps D W E F) (ver : Nat → EngineVersion) (env : NodeEnv) (st : EngineState D W E F)
    (height ts : Nat) (fids : List Nat) (msgs : List Msg) : List (Except HubErr Unit) :=
  let seq := match maxSeqnum some st.ev with | .ok n => n | .error _ => 0
  let verdicts := simulateGroups ops (ver ts) env ts st.d msgs fids (ops.start st.d height) OMap.empty seq
  msgs.map (fun m => (verdicts.lookup m.fid).getD (.ok ()))

end
end Verif
