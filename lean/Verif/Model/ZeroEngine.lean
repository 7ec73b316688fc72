import Verif.Model.Admission
import Verif.Model.ShardEngine
import Verif.Model.VerificationCap
import Verif.Model.Lending
import Verif.Model.Channel
/-!
The engine of shard 0: /repo/src/storage/store/block_engine.rs (below: by line number only).  It takes on-chain events,
key messages, loans, verifications and channel messages, and hands the accepted ones to the data shards as block events.

Simplifications: metrics are left out; of a user message only the parts of the store model are kept, the rest is `wire`;
event numbers of events that are not events of message stores are left out (those of on-chain events, key messages and
merge failures); the block store is in `Model/BlockStore`.  The trie has its own table.
-/
namespace Verif

/-- What is fixed for the engine, and the libraries. -/
structure ZeroCfg where
  env : VEnv
  crypto : KeyCrypto
  net : Network
  /-- `EngineVersion::version_for` on the network of the node, by Farcaster time -/
  ver : Nat → EngineVersion
  /-- the message as it came over the network -/
  wire : Msg → WMsg
  txHash : OEvent → Bytes
  /-- the hub event of a merged key message, /repo/src/storage/store/account/gasless_key_merge.rs -/
  keyEvent : AdmitNode → Msg → TrieEvent
  /-- the registry and the verifications on the owner of a channel, 776-803, as in `validateChannel` -/
  owner : AdmitNode → StoreState → Bytes → Option (Option Nat)
  caps : SlotCaps
  ctx : Nat → MergeCtx
  /-- the hash of the trie, and the hash of block events -/
  H : Bytes → Bytes
  HB : Bytes → Bytes
  ord : List UInt8 → List UInt8
  sha256 : Bytes → Bytes
  /-- the encoding of the data of a block event -/
  encB : BData → Bytes

/-- A user message that passed validation: with the time of its block and the on-chain, key and message tables at that
moment. -/
structure ZPost where
  ts : Nat
  node : AdmitNode
  msg : Msg
  store : StoreState

/-- The state of the engine, committed or being worked on: the message stores and the trie, the on-chain and key tables,
the block events.  `posts` is a record for the theorems; nothing reads it. -/
structure ZWork where
  st : StoreTrie := {}
  admit : AdmitNode := {}
  bev : Db BEvent := OMap.empty
  bpend : Txn BEvent := OMap.empty
  posts : List ZPost := []

/-- The hub events of shard 0. -/
inductive ZEv where
  | store (e : StoreEvent)
  | key (m : Msg) (e : TrieEvent)
  | onchain (e : OEvent) (x : Nat × Nat × Bytes × Nat)
  | failed (m : Msg)

/-- As the trie sees it, `TrieKey::for_hub_event`. -/
def ZEv.trie : ZEv → TrieEvent
  | .store e => e.hub
  | .key _ e => e
  | .onchain _ x => .onchain (some x)
  | .failed _ => .noTrie

/-- As `generate_block_events` sees it, 1733-1829. -/
def ZEv.hub : ZEv → ZHub
  | .store (.merge m _) => .mergeMessage (some m)
  | .store _ => .other
  | .key m _ => .mergeMessage (some m)
  | .onchain e _ => .mergeOnChain (some e)
  | .failed _ => .other

/-- How a call goes wrong: with an error that is passed on, or with a panic. -/
inductive ZFail where
  | panic
  | err (e : HubErr)
  deriving DecidableEq

/-- The variables of `replay_snapchain_txn`, 1432-1505. -/
structure ZLoop where
  w : ZWork
  events : List ZEv := []
  errs : List AErr := []
  slot : Slot
  vslot : Slot
  counts : VCounts := {}

/-- A block of shard 0, as far as the engine reads it, and a proposal (`BlockStateChange`, 494-504). -/
structure ZBlock (F : Type) where
  height : Nat
  ts : Nat
  root : Bytes
  txns : List (ETxn F)
  eventsHash : Bytes
  events : List BEvent := []

/-- Is this a verification?  1471-1478 and 1508-1513. -/
def isVerificationTy (t : MessageType) : Bool := t == .verificationAdd || t == .verificationRemove

/-- The body half of the channel guard, 1020-1026. -/
def isChannelBody : Body → Bool
  | .channelUpdate .. | .channelMember .. | .channelPin .. | .channelModerate .. => true
  | _ => false

namespace ZeroCfg
variable {F : Type} (c : ZeroCfg)

/-- `get_storage_slot_for_fid`, 454-487. -/
def slotFor (clock : Nat) (v : EngineVersion) (w : ZWork) (pending : List OEvent) (fid : Nat) (lent borrowed : Bool) :
    Option Slot :=
  let now := UInt32.ofNat clock
  match slotForFid now (decide (c.net = .mainnet)) (v.isEnabled .storageExpiryExtension2026) w.admit.chain.db pending fid
      (if lent then mergeLends now (lentOf w.st.store.db fid) else uncounted)
      (if borrowed then mergeLends now (borrowedOf w.st.store.db fid) else uncounted) with
  | .ok s => some s
  | .error _ => none

/-- `storage_slot_for_transaction`, 1871-1891. -/
def txnSlot (clock : Nat) (v : EngineVersion) (w : ZWork) (t : ETxn F) (borrowed : Bool) : Option Slot :=
  c.slotFor clock v w (t.sys.filterMap (·.onchain)) t.fid true borrowed

/-- `verification_message_counts`, 641-676. -/
def counts (t : TrieState) (fid : Nat) : Except HubErr VCounts :=
  let live := t.getCount (trieKeyType c.sha256 fid (UInt8.ofNat MessageType.verificationAdd.num))
  let tombs := t.getCount (trieKeyType c.sha256 fid (UInt8.ofNat MessageType.verificationRemove.num))
  if live < 2 ^ 32 ∧ tombs < 2 ^ 32 then .ok ⟨live, tombs⟩ else .error .internal

/-- The signer check, 960-1007: as on a data shard, but the batch is always read. -/
def signer (n : AdmitNode) (v : EngineVersion) (d : WData) (key : Bytes) : Except AErr (Option UInt32) :=
  if d.type.isKey then
    if v.isEnabled .gaslessSigners then .ok none else .error .invalidType
  else
    match activeKeyFor n.chain.db n.chain.pend n.keys.db n.keys.txn d.fid key with
    | .error _ => .error .missingSigner
    | .ok none => .error .missingSigner
    | .ok (some k) => if k.admits d.type then .ok k.bumpTtl else .error .outOfScope

/-- The lend arm, 1038-1062. -/
def lendArm (clock : Nat) (v : EngineVersion) (w : ZWork) (slot : Slot) (fid units : Nat) (ty : UnitType) : Except AErr Unit :=
  match c.slotFor clock v w [] fid false false with
  | none => .error (.store .validation)
  | some total =>
    if admitLend ⟨decide (c.net = .mainnet), v.isEnabled .storageExpiryExtension2026, v.isEnabled .storageLendingLimitFix⟩
        total slot units ty then .ok ()
    else .error (.store .validation)

/-- The verification arm, 1070-1176. -/
def verificationArm (v : EngineVersion) (w : ZWork) (slot : Slot) (counts : VCounts) (m : Msg) : Except AErr Unit :=
  if !v.isEnabled .verificationsOnShardZero then .error .invalidType
  else if !(c.ver m.ts).isEnabled .verificationsOnShardZero then .error .invalidType
  else match admitVerification w.st.store.db w.st.store.pend.txn (maxMessages slot .verifications).toNat counts m with
    | .ok () => .ok ()
    | .error e => .error (.store e)

/-- The state-dependent checks by body, 1009-1179. -/
def arm (clock : Nat) (v : EngineVersion) (w : ZWork) (slot : Slot) (counts : VCounts) (m : Msg) (d : WData) :
    Except AErr (Option ChanKind) :=
  if ShardCfg.isChannelType m.ty || isChannelBody m.body then
    if v.isEnabled .channelMessages then
      match validateChannel w.st.store.db w.st.store.pend.txn (c.owner w.admit w.st.store) m with
      | .ok k => .ok (some k)
      | .error e => .error (.store e)
    else .error .invalidType
  else match m.body with
    | .lend _ units ty => (c.lendArm clock v w slot d.fid units ty).map (fun _ => none)
    | .verificationAdd _ | .verificationRemove _ => (c.verificationArm v w slot counts m).map (fun _ => none)
    | _ => match d.body with
      | some (.keyAdd _) | some (.keyRemove _) => if v.isEnabled .gaslessSigners then .ok none else .error .invalidType
      | _ => .error .invalidType

/-- The checks after `validate_message`, 952-1199. -/
def checks (clock : Nat) (v : EngineVersion) (ts : Nat) (w : ZWork) (slot : Slot) (counts : VCounts) (m : Msg) (d : WData) :
    Except AErr (Txn GVal × Option ChanKind) :=
  match idRegisterEvent w.admit.chain.db w.admit.chain.pend d.fid with
  | .error _ => .error .missingFid
  | .ok none => .error .missingFid
  | .ok (some _) =>
    match signer w.admit v d (c.wire m).signer with
    | .error e => .error e
    | .ok ttl =>
      match c.arm clock v w slot counts m d with
      | .error e => .error e
      | .ok k =>
        match bumpKey w.admit ts d (c.wire m).signer ttl with
        | .error e => .error e
        | .ok t => .ok (t, k)

/-- `validate_user_message_with_verification_counts`, 918-1203: the batch of the key tables, bumped, and where a channel
message belongs. -/
def validateUser (clock : Nat) (v : EngineVersion) (ts : Nat) (w : ZWork) (slot : Slot) (counts : VCounts) (m : Msg) :
    Except AErr (Txn GVal × Option ChanKind) :=
  match (c.wire m).data with
  | none => .error .noData
  | some d =>
    match tierActiveAt w.admit.chain.db 1 d.fid ts with
    | .error e => .error (.store e)
    | .ok pro =>
      match validateMessage c.env c.net pro ts v (c.wire m) with
      | .error e => .error (.invalid e)
      | .ok () => c.checks clock v ts w slot counts m d

/-- `merge_message` of a key message, 1249-1289: the version is that of the message's own time; additions are checked in
full, not as replays. -/
def keyOp (n : AdmitNode) (m : WMsg) : Option KeyOp :=
  match keyOpOf c.crypto c.net n m with
  | some (.add e k _) => some (.add e k false)
  | o => o

/-- Merge a key message; a refused one keeps what was staged. -/
def mergeKey (n : AdmitNode) (m : WMsg) : Bool × AdmitNode :=
  match c.keyOp n m with
  | none => (false, n)
  | some o =>
    if (o.exec n.keys).1 then (true, { n with keys := (o.exec n.keys).2, keyLog := n.keyLog ++ noteOf n.chain.log o })
    else (false, { n with keys := (o.exec n.keys).2 })

/-- Bookkeeping: the note of an accepted message of a gasless key. -/
def note (n : AdmitNode) (v : EngineVersion) (d : WData) (key : Bytes) : List KeyNote :=
  match signer n v d key with
  | .ok (some _) => [.used d.fid key (UInt32.ofNat d.ts).toNat]
  | _ => []

/-- After validation: the bumped batch, and the record. -/
def posted (w : ZWork) (v : EngineVersion) (ts : Nat) (t : Txn GVal) (m : Msg) : ZWork :=
  { w with
    admit := { w.admit with
      keys := { w.admit.keys with txn := t }
      keyLog := w.admit.keyLog ++ match (c.wire m).data with
        | some d => note w.admit v d (c.wire m).signer
        | none => [] }
    posts := w.posts ++ [⟨ts, w.admit, m, w.st.store⟩] }

/-- The batch of the message stores. -/
def stage (w : ZWork) (s : SSt) : ZWork := { w with st := { w.st with store := { w.st.store with pend := s } } }

/-- The lend arm of the loop, 1525-1549: a refused merge is passed over in silence. -/
def mergeLend (clock : Nat) (v : EngineVersion) (x : ZLoop) (w : ZWork) (m : Msg) : ZLoop :=
  if v.isEnabled .storageLending then
    match lendMerge w.st.store.db (c.ctx m.ts) m w.st.store.pend with
    | (.error _, s) => { x with w := stage w s }
    | (.ok evs, s) =>
      { x with
        w := stage w s
        slot := evs.foldl (onMerge (UInt32.ofNat clock)) x.slot
        vslot := evs.foldl (onMerge (UInt32.ofNat clock)) x.vslot
        events := x.events ++ evs.map .store }
  else { x with w := w }

/-- The key arm, 1550-1559: a refused merge is passed over in silence. -/
def mergeKeyArm (v : EngineVersion) (x : ZLoop) (w : ZWork) (m : Msg) : ZLoop :=
  if v.isEnabled .gaslessSigners then
    match c.mergeKey w.admit (c.wire m) with
    | (true, n) => { x with w := { w with admit := n }, events := x.events ++ [.key m (c.keyEvent w.admit m)] }
    | (false, n) => { x with w := { w with admit := n } }
  else { x with w := w }

/-- The verification arm, 1566-1624. -/
def mergeVerification (v : EngineVersion) (x : ZLoop) (w : ZWork) (m : Msg) : Except ZFail ZLoop :=
  if v.isEnabled .verificationsOnShardZero then
    match verificationStore.merge w.st.store.db (c.ctx m.ts) m w.st.store.pend with
    | (.error e, s) => .ok { x with w := stage w s, events := x.events ++ [.failed m], errs := x.errs ++ [.store e] }
    | (.ok ev, s) =>
      match applyDelta x.counts ev with
      | none => .error (.err .internal)
      | some n => .ok { x with w := stage w s, counts := n, events := x.events ++ [.store ev] }
  else .ok { x with w := w }

/-- The channel arm, 1625-1674. -/
def mergeChannel (v : EngineVersion) (x : ZLoop) (w : ZWork) (k : Option ChanKind) (m : Msg) : Except ZFail ZLoop :=
  match k with
  | none => .error (.err .invalidInternalState)
  | some k =>
    match mergeSlot k c.caps w.st.store.db (v.isEnabled .channelMessages) m w.st.store.pend with
    | (.error e, s) => .ok { x with w := stage w s, events := x.events ++ [.failed m], errs := x.errs ++ [.store e] }
    | (.ok ev, s) => .ok { x with w := stage w s, events := x.events ++ [.store ev] }

/-- One round of the loop over user messages, 1507-1686. -/
def doUser (clock : Nat) (v : EngineVersion) (ts : Nat) (x : ZLoop) (m : Msg) : Except ZFail ZLoop :=
  match c.validateUser clock v ts x.w (if isVerificationTy m.ty then x.vslot else x.slot) x.counts m with
  | .error e => .ok { x with errs := x.errs ++ [e] }
  | .ok (t, k) =>
    let w := c.posted x.w v ts t m
    match m.ty with
    | .lendStorage => .ok (c.mergeLend clock v x w m)
    | .keyAdd | .keyRemove => .ok (c.mergeKeyArm v x w m)
    | .verificationAdd | .verificationRemove => c.mergeVerification v x w m
    | .channelUpdate | .channelMember | .channelPin | .channelModerate => c.mergeChannel v x w k m
    | _ => .ok { x with w := w }

/-- The loop. -/
def doUsers (clock : Nat) (v : EngineVersion) (ts : Nat) : List Msg → ZLoop → Except ZFail ZLoop
  | [], x => .ok x
  | m :: ms, x =>
    match c.doUser clock v ts x m with
    | .error e => .error e
    | .ok x => doUsers clock v ts ms x

/-- `block_engine_system_messages_for_replay`, 506-534. -/
def sysOrder (v : EngineVersion) (l : List (SysMsg F)) : List (SysMsg F) :=
  if v.isEnabled .sortedBlockEngineEvents then sysSort l else l

/-- One round of the loop over system messages, 1436-1463; a refused event is logged. -/
def doSys (v : EngineVersion) (w : ZWork) (m : SysMsg F) : ZWork × List ZEv :=
  match m.onchain with
  | none => (w, [])
  | some e =>
    if e.ty = 6 ∧ v.isEnabled .channelRegistrations = false then (w, [])
    else
      ({ w with admit := (w.admit.exec c.env c.crypto c.net (.chain e)).2 },
        match (mergeOnchainEvent c.env.keccak false w.admit.chain.db w.admit.chain.pend e).1 with
        | .ok () => [.onchain e (e.fid, e.ty, c.txHash e, e.log)]
        | .error _ => [])

/-- The loop. -/
def doSyss (v : EngineVersion) : List (SysMsg F) → ZWork → List ZEv → ZWork × List ZEv
  | [], w, es => (w, es)
  | m :: ms, w, es => doSyss v ms (c.doSys v w m).1 (es ++ (c.doSys v w m).2)

/-- The storage and the counts for the verifications of a transaction, 1471-1505. -/
def quota (clock : Nat) (v : EngineVersion) (w : ZWork) (t : ETxn F) (slot : Slot) : Except ZFail (Slot × VCounts) :=
  if v.isEnabled .verificationsOnShardZero && t.user.any (fun m => isVerificationTy m.ty) then
    match c.txnSlot clock v w t true with
    | none => .error (.err .internal)
    | some vslot =>
      match c.counts w.st.trie t.fid with
      | .error e => .error (.err e)
      | .ok n => .ok (vslot, n)
  else .ok (slot, {})

/-- The update of the trie after the loop and the root of the user, 1688-1700. -/
def close (x : ZLoop) (fid : Nat) : Except ZFail (Bytes × ZLoop) :=
  match x.w.st.trie.updateForEvents c.H c.ord c.sha256 (x.events.map ZEv.trie) with
  | .error _ => .error (.err .invalidInternalState)
  | .ok t => .ok (t.getHash c.H (trieKeyFid c.sha256 fid), { x with w := { x.w with st := { x.w.st with trie := t } } })

/-- `replay_snapchain_txn`, 1424-1701: the user's root, and the state, events and validation errors. -/
def replay (clock : Nat) (v : EngineVersion) (ts : Nat) (w : ZWork) (t : ETxn F) : Except ZFail (Bytes × ZLoop) :=
  let s := c.doSyss v (sysOrder v t.sys) w []
  match c.txnSlot clock v s.1 t false with
  | none => .error .panic
  | some slot =>
    match c.quota clock v s.1 t slot with
    | .error e => .error e
    | .ok q =>
      match c.doUsers clock v ts t.user { w := s.1, events := s.2, slot := slot, vslot := q.1, counts := q.2 } with
      | .error e => .error e
      | .ok x => c.close x t.fid

/-- The transactions of a block one after another: their roots and all events.  `claimed` compares each root with the
one in the transaction, 2120-2132. -/
def replays (clock : Nat) (v : EngineVersion) (ts : Nat) (claimed : Bool) :
    List (ETxn F) → ZWork → Except ZFail (List Bytes × ZWork × List ZEv)
  | [], w => .ok ([], w, [])
  | t :: l, w =>
    match c.replay clock v ts w t with
    | .error e => .error e
    | .ok (r, x) =>
      if claimed = true ∧ r ≠ t.root then .error (.err .validation)
      else match replays clock v ts claimed l x.w with
        | .error e => .error e
        | .ok (rs, w, es) => .ok (r :: rs, w, x.events ++ es)

/-- `set_height`, 603-609, and a fresh batch. -/
def begin (d : ZWork) (v : EngineVersion) (h : Nat) : ZWork :=
  { d with
    st := { d.st with store := { d.st.store with
      pend := ⟨OMap.empty, if v.isEnabled .eventIdBugFix then d.st.store.pend.gen.setHeight h else d.st.store.pend.gen⟩ } }
    admit := (d.admit.exec c.env c.crypto c.net .drop).2
    bpend := OMap.empty }

/-- The batch is dropped and the trie reloaded; the event numbers drawn are not given back. -/
def dropped (d w : ZWork) : ZWork :=
  { d with st := { d.st with store := { d.st.store with pend := { d.st.store.pend with gen := w.st.store.pend.gen } } } }

/-- `generate_block_events`, 1720-1869; an error is the panic of `unwrap`. -/
def events (h ts : Nat) (w : ZWork) (es : List ZEv) : Except ZFail (ZWork × List BEvent) :=
  match maxSeqnum some w.bev with
  | .error _ => .error .panic
  | .ok n =>
    let bs := generateBlockEvents c.HB c.encB ⟨c.net, h, ts, c.ver ts⟩ n (es.map ZEv.hub)
    match stageBlockEvents w.bpend bs with
    | .error _ => .error .panic
    | .ok t => .ok ({ w with bpend := t }, bs)

/-- `root_hash`. -/
def root (w : ZWork) : Except ZFail Bytes :=
  match w.st.trie.rootHash c.H with
  | .error _ => .error (.err .invalidInternalState)
  | .ok r => .ok r

/-- The proposer's filter, 1908-1926: the user messages of users without active storage go, and then empty
transactions. -/
def screen (clock : Nat) (v : EngineVersion) (d : ZWork) (t : ETxn F) : Option (ETxn F) :=
  match c.txnSlot clock v d t true with
  | none => none
  | some s =>
    let t := if s.isActive (UInt32.ofNat clock) then t else { t with user := [] }
    if t.sys.isEmpty && t.user.isEmpty then none else some t

/-- `prepare_proposal`, 1893-1959.  `txns` is what `create_transactions_from_mempool` made of the messages. -/
def prepare (clock h ts : Nat) (v : EngineVersion) (d : ZWork) (txns : List (ETxn F)) : Except ZFail (ZBlock F × ZWork) :=
  let txns := txns.filterMap (c.screen clock v d)
  match c.replays clock v ts false txns (c.begin d v h) with
  | .error e => .error e
  | .ok (rs, w, es) =>
    match c.events h ts w es with
    | .error e => .error e
    | .ok (w, bs) =>
      match c.root w with
      | .error e => .error e
      | .ok r => .ok (⟨h, ts, r, (txns.zip rs).map (fun p => { p.1 with root := p.2 }), eventsHash c.HB bs, bs⟩, w)

/-- `propose_state_change`, 1961-1998; `none` is a panic.  Before version 9 nothing is proposed. -/
def propose (clock h ts : Nat) (d : ZWork) (txns : List (ETxn F)) : Option (ZBlock F × ZWork) :=
  if (c.ver ts).isEnabled .writeDataToShardZero then
    match c.prepare clock h ts (c.ver ts) d txns with
    | .error _ => none
    | .ok (b, w) => some (b, dropped d w)
  else some (⟨h, clock - farcasterEpoch / 1000, [], [], [], []⟩, d)

/-- `replay_proposal`, 2068-2166.  A mismatch with the parent's root is only logged. -/
def replayProposal (clock : Nat) (d : ZWork) (b : ZBlock F) : Except ZFail ZWork :=
  match c.replays clock (c.ver b.ts) b.ts true b.txns (c.begin d (c.ver b.ts) b.height) with
  | .error e => .error e
  | .ok (_, w, es) =>
    match c.events b.height b.ts w es with
    | .error e => .error e
    | .ok (w, bs) =>
      if eventsHash c.HB bs ≠ b.eventsHash then .error (.err .validation)
      else match c.root w with
        | .error e => .error e
        | .ok r => if r ≠ b.root then .error (.err .validation) else .ok w

/-- `validate_state_change`, 2168-2210; `none` is a panic.  What is left of the event numbers after a failing replay is
not modelled: they are as before. -/
def validate (clock : Nat) (d : ZWork) (b : ZBlock F) : Option (Bool × ZWork) :=
  if (c.ver b.ts).isEnabled .writeDataToShardZero then
    match c.replayProposal clock d b with
    | .ok w => some (true, dropped d w)
    | .error .panic => none
    | .error (.err _) => some (false, d)
  else some (true, d)

/-- `db.commit` and `trie.reload`, 2249-2254. -/
def finish (w : ZWork) : Option ZWork :=
  match w.st.trie.commit.reload with
  | .error _ => none
  | .ok t => some {
      st := ⟨w.st.store.exec castStore c.ctx .commit, t⟩
      admit := (w.admit.exec c.env c.crypto c.net .commit).2
      bev := w.bev.commit w.bpend
      posts := w.posts }

/-- `commit_block`, 2212-2277; `none` is a panic. -/
def commit (clock : Nat) (d : ZWork) (b : ZBlock F) : Option ZWork :=
  if (c.ver b.ts).isEnabled .writeDataToShardZero then
    match c.replayProposal clock d b with
    | .error _ => none
    | .ok w => c.finish w
  else some d

/-- `simulate_message`, 2344-2385: the first validation error; `none` is a panic.  The time is the wall clock, and the
height is not set. -/
def simulate (clock : Nat) (d : ZWork) (m : Msg) : Option (Except AErr Unit × ZWork) :=
  let ts := clock - farcasterEpoch / 1000
  let t : ETxn Unit := ⟨m.fid, [], [m], []⟩
  match c.replay clock (c.ver ts) ts (dropped (c.begin d .v0 0) d) t with
  | .error .panic => none
  | .error (.err e) => some (.error (.store e), d)
  | .ok (_, x) =>
    match x.errs with
    | e :: _ => some (.error e, dropped d x.w)
    | [] => some (.ok (), dropped d x.w)

end ZeroCfg
end Verif
