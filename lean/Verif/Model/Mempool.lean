import Verif.Model.Keys
import Verif.Model.Store
import Verif.Model.Routing
import Verif.Model.Engine
import Verif.Model.Time
import Verif.Model.Consensus
import Verif.Model.Text
/-!
The mempool of a validator.  `mempool` in citations is /repo/src/mempool/mempool.rs, `poller` is
/repo/src/storage/store/mempool_poller.rs.  Metrics, gossip of accepted messages and replies are left out.  The rate
limiters (token buckets over wall-clock time, mempool 120-262 and 701-745) are an answer given with each offered
message.
-/
namespace Verif

/-- The order of the shard ids and of the user ids, as keys. -/
instance : StrictOrd Nat where
  lt a b := a < b
  decLt _ _ := inferInstance
  irrefl a h := Nat.lt_irrefl a h
  trans h1 h2 := Nat.lt_trans h1 h2
  tri a b := Nat.lt_trichotomy a b

/-- `MempoolKey`, mempool 274-279.  `user` is the kind (268-272): validator messages come first. -/
structure MKey where
  user : Bool
  ts : Nat
  id : Bytes
  deriving DecidableEq, Repr

/-- The derived order of `MempoolKey`, mempool 274: kind, timestamp, identity; strings are compared by their bytes. -/
def MKey.lt (a b : MKey) : Prop :=
  a.user.toNat < b.user.toNat ∨
    (a.user.toNat = b.user.toNat ∧ (a.ts < b.ts ∨ (a.ts = b.ts ∧ a.id ≺ b.id)))

instance : StrictOrd MKey where
  lt := MKey.lt
  decLt a b := by unfold MKey.lt; infer_instance
  irrefl a h := by
    rcases h with h | ⟨_, h | ⟨_, h⟩⟩
    · omega
    · omega
    · exact StrictOrd.irrefl _ h
  trans h1 h2 := by
    rcases h1 with h1 | ⟨e1, h1 | ⟨f1, h1⟩⟩ <;> rcases h2 with h2 | ⟨e2, h2 | ⟨f2, h2⟩⟩
    · exact .inl (by omega)
    · exact .inl (by omega)
    · exact .inl (by omega)
    · exact .inl (by omega)
    · exact .inr ⟨by omega, .inl (by omega)⟩
    · exact .inr ⟨by omega, .inl (by omega)⟩
    · exact .inl (by omega)
    · exact .inr ⟨by omega, .inl (by omega)⟩
    · exact .inr ⟨by omega, .inr ⟨by omega, StrictOrd.trans h1 h2⟩⟩
  tri a b := by
    obtain ⟨u, t, i⟩ := a; obtain ⟨v, s, j⟩ := b
    simp only [MKey.mk.injEq, MKey.lt]
    rcases Nat.lt_trichotomy u.toNat v.toNat with h | h | h
    · exact .inl (.inl h)
    · have e : u = v := by cases u <;> cases v <;> simp_all
      rcases Nat.lt_trichotomy t s with g | g | g
      · exact .inl (.inr ⟨h, .inl g⟩)
      · rcases StrictOrd.tri i j with k | k | k
        · exact .inl (.inr ⟨h, .inr ⟨g, k⟩⟩)
        · exact .inr (.inl ⟨e, g, k⟩)
        · exact .inr (.inr (.inr ⟨h.symm, .inr ⟨g.symm, k⟩⟩))
      · exact .inr (.inr (.inr ⟨h.symm, .inl g⟩))
    · exact .inr (.inr (.inl h))

/-- `MempoolMessage`, poller 30-40.  An on-chain event comes with its transaction hash, a name transfer with its id and
the timestamp and fid of its proof (a transfer without proof panics, mempool 327).  A user message without data (which
panics, mempool 309) and a block event without data (/repo/proto/src/lib.rs:91-98) are left out. -/
inductive PMsg (F : Type) where
  | user (m : Msg)
  | onchain (txHash : Bytes) (e : OEvent)
  | migration (txHash : Bytes) (e : OEvent)
  | fname (id ts fid : Nat) (f : F)
  | blockEvent (shard : Nat) (hash : Bytes) (d : BData)
  deriving DecidableEq, Repr

variable {F : Type}

/-- `Message::mempool_key`, mempool 300-311, with `to_unix_seconds` of a `u32` (no overflow). -/
def userKey (m : Msg) : MKey := ⟨true, m.ts + farcasterEpoch / 1000, hexEncode m.hash⟩

/-- `mempool_key` of a `MempoolMessage`, mempool 366-398, with `ValidatorMessage::mempool_key`, mempool 317-345.  The
timestamp of a block event is in Farcaster time, those of the others in Unix time. -/
def PMsg.key : PMsg F → MKey
  | .user m => userKey m
  | .onchain h e | .migration h e => ⟨false, e.ts, hexEncode h ++ decimal e.log⟩
  | .fname id ts _ _ => ⟨false, ts, decimal id⟩
  | .blockEvent _ _ d => ⟨false, d.ts, decimal d.seqnum⟩

/-- `MempoolMessage::fid`, poller 43-68.  A `MergeMessageEventBody` without message panics there; here its fid is 0. -/
def PMsg.fid : PMsg F → Nat
  | .user m => m.fid
  | .onchain _ e | .migration _ e => e.fid
  | .fname _ _ fid _ => fid
  | .blockEvent _ _ d => match d.body with
    | some (.message (some m)) => m.fid
    | some (.onchain (some e)) => e.fid
    | _ => 0

/-- `is_live_at`, mempool 615-624: user data of type 14, /repo/proto/definitions/message.proto:124. -/
def isLiveAt (m : Msg) : Bool :=
  match m.body with
  | .userData 14 _ => true
  | _ => false

/-- The live-at message in a pending message, if it is one. -/
def PMsg.liveAt? : PMsg F → Option Msg
  | .user m => if isLiveAt m then some m else none
  | _ => none

/-- `live_at_lww_compare`, mempool 626-633, with `unwrap_or(1)` of mempool 902. -/
def liveAtCompare (existing incoming : Msg) : Int :=
  match makeTsHash existing.ts existing.hash, makeTsHash incoming.ts incoming.hash with
  | .ok a, .ok b => bytesCompare a b
  | _, _ => 1

/-- The queue of one shard and its part of `live_at_messages_by_fid`, mempool 635-660. -/
structure Queue (F : Type) where
  msgs : OMap MKey (PMsg F)
  live : OMap Nat MKey

/-- What validity depends on: the engine version now, the highest block event of a shard's store (`none` inside if it
cannot be read, `none` outside if the node has no such shard), the shard databases. -/
structure PoolEnv where
  version : EngineVersion
  maxSeq : Nat → Option (Option Nat)
  db : Nat → Option (Db SVal)

/-- `type_to_set_postfix`, /repo/src/storage/store/account/message.rs:46-93. -/
def setPostfix? : MessageType → Option UInt8
  | .castAdd | .castRemove => some 1
  | .linkAdd | .linkRemove => some 2
  | .reactionAdd | .reactionRemove => some 3
  | .verificationAdd | .verificationRemove => some 4
  | .userDataAdd => some 6
  | .usernameProof => some 7
  | .lendStorage => some 8
  | .channelUpdate => some 9
  | .channelMember => some 10
  | .channelPin => some 11
  | .channelModerate => some 12
  | _ => none

/-- `message_already_exists`, mempool 440-492.  `make_ts_hash(..).unwrap()` panics on a hash that is not 20 bytes. -/
def alreadyExists (env : PoolEnv) (shard : Nat) (p : PMsg F) : Except HubErr Bool :=
  match env.db shard with
  | none => .ok false
  | some db => match p with
    | .user m => match makeTsHash m.ts m.hash with
      | .error _ => .error .panic
      | .ok tsHash => match setPostfix? m.ty with
        | none => .ok false
        | some set => match db.get (makeMessagePrimaryKey m.fid set (some tsHash)) with
          | none => .ok false
          | some v => .ok v.decodeMsg.isSome
    | _ => .ok false

/-- The feature gate of `message_is_valid`, mempool 789-820. -/
def featureGate (env : PoolEnv) : PMsg F → Except HubErr Unit
  | .user m => match m.ty with
    | .channelUpdate | .channelMember | .channelPin | .channelModerate =>
      if env.version.isEnabled .channelMessages then .ok () else .error .validation
    | .keyAdd | .keyRemove => if env.version.isEnabled .gaslessSigners then .ok () else .error .validation
    | _ => .ok ()
  | _ => .ok ()

/-- The block event check of `message_is_valid`, mempool 822-835. -/
def blockEventGate (env : PoolEnv) : PMsg F → Except HubErr Unit
  | .blockEvent forShard _ d =>
    if forShard = 0 then .error .invalidInternalState
    else match env.maxSeq forShard with
      | none => .error .panic
      | some none => .ok ()
      | some (some n) => if d.seqnum ≤ n then .error .duplicate else .ok ()
  | _ => .ok ()

/-- `message_is_valid` with `at_admission = false`, mempool 783-839. -/
def stillValid (env : PoolEnv) (shard : Nat) (p : PMsg F) : Except HubErr Unit :=
  match featureGate env p with
  | .error e => .error e
  | .ok () => match blockEventGate env p with
    | .error e => .error e
    | .ok () => match alreadyExists env shard p with
      | .error e => .error e
      | .ok true => .error .duplicate
      | .ok false => .ok ()

/-- `message_is_valid` with `at_admission = true`, mempool 783-850.  `limited` is `message_exceeds_rate_limits`; its
error code is written `validation` here. -/
def admissible (env : PoolEnv) (limited : Bool) (shard : Nat) (p : PMsg F) : Except HubErr Unit :=
  match stillValid env shard p with
  | .error e => .error e
  | .ok () => if limited then .error .validation else .ok ()

/-- `remove_live_at_index_for_message`, mempool 852-872. -/
def unindexLive (live : OMap Nat MKey) (key : MKey) (p : PMsg F) : OMap Nat MKey :=
  match p.liveAt? with
  | none => live
  | some m => if live.get m.fid = some key then live.del m.fid else live

/-- `prepare_live_at_insert`, mempool 874-908: the key to replace, if any, and the index. -/
def prepareLive (q : Queue F) (p : PMsg F) : Except HubErr (Option MKey) × OMap Nat MKey :=
  match p.liveAt? with
  | none => (.ok none, q.live)
  | some m => match q.live.get m.fid with
    | none => (.ok none, q.live)
    | some k => match q.msgs.get k with
      | none => (.ok none, q.live.del m.fid)
      | some (.user old) => if liveAtCompare old m > 0 then (.error .duplicate, q.live) else (.ok (some k), q.live)
      | some _ => (.ok none, q.live.del m.fid)

/-- `index_live_at_insert`, mempool 910-919. -/
def indexLive (live : OMap Nat MKey) (p : PMsg F) : OMap Nat MKey :=
  match p.liveAt? with
  | none => live
  | some m => live.put m.fid (userKey m)

/-- Taking out the replaced message, mempool 981-985. -/
def dropOld (msgs : OMap MKey (PMsg F)) : Option MKey → OMap MKey (PMsg F)
  | none => msgs
  | some k => msgs.del k

/-- `insert_into_shard`, mempool 952-1012. -/
def insertShard (env : PoolEnv) (limited : Bool) (shard : Nat) (q : Queue F) (p : PMsg F) :
    Except HubErr Unit × Queue F :=
  match q.msgs.get p.key with
  | some _ => (.error .duplicate, q)
  | none => match prepareLive q p with
    | (.error e, live) => (.error e, { q with live := live })
    | (.ok old, live) => match admissible env limited shard p with
      | .error e => (.error e, { q with live := live })
      | .ok () => (.ok (), ⟨(dropOld q.msgs old).put p.key p, indexLive live p⟩)

/-- The loop of `pull_messages`, mempool 748-776, on the rows of the queue in key order (`pop_first`): the messages
handed out, the rows left, the index.  An error is a panic of the validity check. -/
def pullRows (env : PoolEnv) (shard : Nat) : List (MKey × PMsg F) → Nat → OMap Nat MKey →
    Except HubErr (List (PMsg F) × List (MKey × PMsg F) × OMap Nat MKey)
  | [], _, live => .ok ([], [], live)
  | r :: rows, 0, live => .ok ([], r :: rows, live)
  | r :: rows, n + 1, live =>
    match stillValid env shard r.2 with
    | .error .panic => .error .panic
    | .error _ => pullRows env shard rows (n + 1) (unindexLive live r.1 r.2)
    | .ok () => match pullRows env shard rows n (unindexLive live r.1 r.2) with
      | .error e => .error e
      | .ok (got, rest, live) => .ok (r.2 :: got, rest, live)

/-- `pull_messages`, mempool 748-781. -/
def pullShard (env : PoolEnv) (shard : Nat) (q : Queue F) (n : Nat) : Except HubErr (List (PMsg F) × Queue F) :=
  match pullRows env shard q.msgs.rows n q.live with
  | .error e => .error e
  | .ok (got, rest, live) => .ok (got, ⟨OMap.ofRows rest, live⟩)

/-- One message of `remove_committed_txns`, mempool 1016-1071. -/
def removeOne (q : Queue F) (p : PMsg F) : Queue F := ⟨q.msgs.del p.key, unindexLive q.live p.key p⟩

/-- `remove_committed_txns`, mempool 1014-1075, for the messages of the decided block. -/
def removeCommitted (q : Queue F) (ps : List (PMsg F)) : Queue F := ps.foldl removeOne q

/-! ### All shards -/

/-- `Mempool`, mempool 635-660: the queues by shard. -/
abbrev Pool (F : Type) := OMap Nat (Queue F)

/-- A shard that has no queue yet, mempool 987-994. -/
def Pool.queue (pool : Pool F) (shard : Nat) : Queue F :=
  match pool.get shard with
  | some q => q
  | none => ⟨OMap.empty, OMap.empty⟩

/-- `route_mempool_message`, mempool 514-556.  `none` is the panic without shards. -/
def routes (sha256 : Bytes → Bytes) (version : EngineVersion) (numShards : Nat) (p : PMsg F) : Option (List Nat) :=
  match routeFid sha256 p.fid numShards with
  | none => none
  | some fidShard => match p with
    | .fname _ _ _ _ =>
      if version.isEnabled .usernameShardRoutingFix then some ((List.range numShards).map (· + 1)) else some [fidShard]
    | .migration _ _ => some [0]
    | .onchain _ _ => some [0, fidShard]
    | .blockEvent s _ _ => some [s]
    | .user m => (routeMessage sha256 m.ty m.fid numShards version).map (fun s => [s])

/-- The loop of `insert`, mempool 922-948: every shard is tried, the first error is the answer.  A panic ends the
mempool. -/
def insertAll (env : PoolEnv) (limited : Bool) (p : PMsg F) : Pool F → List Nat → Except HubErr Unit × Pool F
  | pool, [] => (.ok (), pool)
  | pool, s :: shards =>
    let (r, q) := insertShard env limited s (pool.queue s) p
    let (r', pool') := insertAll env limited p (pool.put s q) shards
    match r with
    | .ok () => (r', pool')
    | .error e => (.error e, pool')

/-- The number of pending messages over all shards, mempool 1123. -/
def Pool.size (pool : Pool F) : Nat := (pool.rows.map (fun r => r.2.msgs.rows.length)).sum

/-- One offered message: what it is routed to, the state it is checked against, the rate limiter's answer. -/
structure Offer (F : Type) where
  env : PoolEnv
  limited : Bool
  msg : PMsg F
  shards : List Nat

/-- One tick of `run`, mempool 1118-1157: the size is computed once, then up to 256 requests are taken from the
channel. -/
def poolTick (unlimited : Bool) (capacity : Nat) (pool : Pool F) (inbox : List (Offer F)) : Pool F :=
  if unlimited = true ∨ pool.size < capacity then
    (inbox.take 256).foldl (fun pool o => (insertAll o.env o.limited o.msg pool o.shards).2) pool
  else pool

/-! ### From messages to transactions -/

/-- The system message made of a pending message, poller 154-181. -/
def PMsg.system? : PMsg F → Option (SysMsg F)
  | .user _ => none
  | .onchain _ e | .migration _ e => some ⟨some e, none, none⟩
  | .fname _ _ _ f => some ⟨none, some f, none⟩
  | .blockEvent _ h d => some ⟨none, none, some ⟨h, some d⟩⟩

/-- The user message in a pending message, poller 155-157. -/
def PMsg.user? : PMsg F → Option Msg
  | .user m => some m
  | _ => none

/-- `create_transactions_from_mempool`, poller 136-194.  `order` is the order in which the hash map gives its keys,
which Rust leaves open. -/
def transactionsOf (order : List Nat) (ps : List (PMsg F)) : List (ETxn F) :=
  (order.map fun fid =>
    let group := ps.filter (fun p => p.fid == fid)
    (⟨fid, group.filterMap PMsg.system?, group.filterMap PMsg.user?, []⟩ : ETxn F)).filter
  (fun t => !t.user.isEmpty || !t.sys.isEmpty)

end Verif
