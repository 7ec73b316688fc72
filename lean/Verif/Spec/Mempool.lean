import Verif.Model.Mempool
import Verif.Model.Stores
import Verif.Model.Names
import Verif.Model.Channel
/-!
What the mempool of one shard promises.  A history is a list of what the node does with one shard's queue: messages
offered to it, proposals pulled from it, decided blocks reported to it.
-/
namespace Verif.Spec
open Verif
variable {F : Type}

inductive PoolOp (F : Type) where
  /-- a message is offered (submitted, gossiped, or read from a chain), with the rate limiter's answer -/
  | offer (env : PoolEnv) (limited : Bool) (p : PMsg F)
  /-- a proposer asks for up to `n` messages -/
  | pull (env : PoolEnv) (n : Nat)
  /-- a block with these messages was decided -/
  | decided (ps : List (PMsg F))

/-- What one step answers. -/
inductive PoolAnswer (F : Type) where
  | offered (r : Except HubErr Unit)
  | pulled (ps : List (PMsg F))
  | done

/-- One step; `none` if the mempool panics and stops. -/
def poolStep (shard : Nat) (q : Queue F) : PoolOp F → Option (PoolAnswer F × Queue F)
  | .offer env limited p => match insertShard env limited shard q p with
    | (.error .panic, _) => none
    | (r, q') => some (.offered r, q')
  | .pull env n => match pullShard env shard q n with
    | .error _ => none
    | .ok (ps, q') => some (.pulled ps, q')
  | .decided ps => some (.done, removeCommitted q ps)

/-- The queue after a history; `none` if the mempool stopped. -/
def poolRun (shard : Nat) : Queue F → List (PoolOp F) → Option (Queue F)
  | q, [] => some q
  | q, op :: ops => match poolStep shard q op with
    | none => none
    | some (_, q') => poolRun shard q' ops

/-- The queue a shard starts with. -/
def noMessages : Queue F := ⟨OMap.empty, OMap.empty⟩

/-- `p` waits in the queue. -/
def Waiting (q : Queue F) (p : PMsg F) : Prop := p ∈ q.msgs.rows.map (·.2)

/-- `p` would be handed out now: it passes the checks that are repeated when messages are pulled. -/
def Proposable (env : PoolEnv) (shard : Nat) (p : PMsg F) : Prop := stillValid env shard p = .ok ()

instance (env : PoolEnv) (shard : Nat) (p : PMsg F) : Decidable (Proposable env shard p) := by
  unfold Proposable
  cases h : stillValid env shard p with
  | ok u => exact isTrue rfl
  | error e => exact isFalse (by simp)

/-- The stores of user messages.  How the reaction store reads URLs does not matter here. -/
def messageStores : List StoreDef :=
  [castStore, reactionStore (fun _ => none), linkStore, verificationStore, userDataStore, nameStore, lendStore,
    ChanKind.store .update, ChanKind.store .member, ChanKind.store .pin, ChanKind.store .moderate]

/-- The store that keeps messages of this type holds a message under this message's timestamp and hash. -/
def HeldBy (db : Db SVal) (m : Msg) : Prop :=
  ∃ D ∈ messageStores, (m.ty = D.addType ∨ (m.ty = D.removeType ∧ m.ty ≠ .none)) ∧
    ∃ th v, makeTsHash m.ts m.hash = .ok th ∧ db.get (makeMessagePrimaryKey m.fid D.set (some th)) = some v ∧
      v.decodeMsg.isSome

/-- The protocol version has the feature that messages of this type belong to. -/
def FeatureOn (version : EngineVersion) (ty : MessageType) : Prop :=
  (ty ∈ [MessageType.channelUpdate, .channelMember, .channelPin, .channelModerate] →
    version.isEnabled .channelMessages = true) ∧
  (ty ∈ [MessageType.keyAdd, .keyRemove] → version.isEnabled .gaslessSigners = true)

/-- The user a message is about; 0 for what concerns no user. -/
def aboutUser : PMsg F → Nat
  | .user m => m.fid
  | .onchain _ e | .migration _ e => e.fid
  | .fname _ _ fid _ => fid
  | .blockEvent _ _ d => match d.body with
    | some (.message (some m)) => m.fid
    | some (.onchain (some e)) => e.fid
    | _ => 0

/-- A message from the chain, the name server or the block producers, rather than from a user. -/
def FromSystem : PMsg F → Prop
  | .user _ => False
  | _ => True

/-- The time a message is queued under. -/
def queueTime : PMsg F → Nat
  | .user m => m.ts + 1609459200
  | .onchain _ e | .migration _ e => e.ts
  | .fname _ ts _ _ => ts
  | .blockEvent _ _ d => d.ts

/-- `p` is user `fid`'s announcement of live activity `m`. -/
def Announces (fid : Nat) (m : Msg) (p : PMsg F) : Prop :=
  p = .user m ∧ m.fid = fid ∧ ∃ v, m.body = .userData 14 v

/-- Later by timestamp, then by hash: the order by which user data is replaced. -/
def NotNewer (a b : Msg) : Prop := a.ts < b.ts ∨ (a.ts = b.ts ∧ (a.hash ≺ b.hash ∨ a.hash = b.hash))

/-- All user messages that occur in a history. -/
def opMsgs : PoolOp F → List (PMsg F)
  | .offer _ _ p => [p]
  | .pull _ _ => []
  | .decided ps => ps

/-- Timestamps fit in 32 bits, as on the wire. -/
def TimesFit (ops : List (PoolOp F)) : Prop := ∀ op ∈ ops, ∀ m, PMsg.user m ∈ opMsgs op → m.ts < 2 ^ 32

/-- Two different pending messages never have the same place in the queue.  For user messages this is what collision
freedom of the hash gives, provided that the hash in each message is the hash of its data. -/
def PlacesDiffer (ops : List (PoolOp F)) : Prop :=
  ∀ op ∈ ops, ∀ op' ∈ ops, ∀ p ∈ opMsgs op, ∀ p' ∈ opMsgs op', p.key = p'.key → p = p'

end Verif.Spec
namespace Verif.Spec
open Verif
variable {F : Type}

/-- Where a message comes from: what identifies it to its sender. -/
inductive Origin where
  /-- a user message: its timestamp and hash -/
  | user (ts : Nat) (hash : Bytes)
  /-- a log of an Ethereum transaction at a time -/
  | log (ts : Nat) (txHash : Bytes) (index : Nat)
  /-- a transfer of the name server -/
  | transfer (ts id : Nat)
  /-- a numbered event of the block shard -/
  | event (ts seqnum : Nat)
  deriving DecidableEq, Repr

def origin : PMsg F → Origin
  | .user m => .user m.ts m.hash
  | .onchain h e | .migration h e => .log e.ts h e.log
  | .fname id ts _ _ => .transfer ts id
  | .blockEvent _ _ d => .event d.ts d.seqnum

/-- What real messages look like: transaction hashes have 32 bytes, numbers fit their types, name transfers are dated
after 2021-01-01 (in Unix seconds) and block events before 2072 (in seconds since 2021-01-01). -/
def Plausible : PMsg F → Prop
  | .user _ => True
  | .onchain h e | .migration h e => h.length = 32 ∧ e.log < 2 ^ 32
  | .fname id ts _ _ => id < 2 ^ 64 ∧ 1609459200 ≤ ts
  | .blockEvent _ _ d => d.seqnum < 2 ^ 64 ∧ d.ts < 1609459200

end Verif.Spec
namespace Verif.Spec
open Verif
variable {F : Type}

/-- The messages accepted in the course of a history. -/
def acceptedIn (shard : Nat) : Queue F → List (PoolOp F) → List (PMsg F)
  | _, [] => []
  | q, op :: ops => match poolStep shard q op with
    | none => []
    | some (.offered (.ok ()), q') => opMsgs op ++ acceptedIn shard q' ops
    | some (_, q') => acceptedIn shard q' ops

/-- Only offers: no proposals and no decided blocks. -/
def OnlyOffers (ops : List (PoolOp F)) : Prop := ∀ op ∈ ops, ∃ env limited p, op = .offer env limited p

end Verif.Spec
namespace Verif.Spec
open Verif
variable {F : Type}

/-- `order` lists the user ids of the messages, each once: what the keys of a hash map may look like. -/
def ListsUsers (order : List Nat) (ps : List (PMsg F)) : Prop :=
  order.Nodup ∧ ∀ fid, fid ∈ order ↔ ∃ p ∈ ps, aboutUser p = fid

/-- The system messages among the pulled ones, as they go into transactions. -/
def systemMessages (ps : List (PMsg F)) : List (SysMsg F) := ps.filterMap fun
  | .user _ => none
  | .onchain _ e | .migration _ e => some ⟨some e, none, none⟩
  | .fname _ _ _ f => some ⟨none, some f, none⟩
  | .blockEvent _ h d => some ⟨none, none, some ⟨h, some d⟩⟩

/-- The user messages among the pulled ones. -/
def userMessages (ps : List (PMsg F)) : List Msg := ps.filterMap fun
  | .user m => some m
  | _ => none

end Verif.Spec
