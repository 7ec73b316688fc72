import Verif.Model.BlockEvents
/-! What shard 0 owes the data shards. -/
namespace Verif.Spec

/-- The messages merged on shard 0 that every data shard must hear about: storage lends and verifications, signer
keys once gasless signers are active, channel messages once channels are active. -/
def Propagated (v : EngineVersion) (m : Msg) : Prop :=
  m.ty ∈ [MessageType.lendStorage, .verificationAdd, .verificationRemove] ∨
  (m.ty ∈ [MessageType.keyAdd, .keyRemove] ∧ v.isEnabled .gaslessSigners = true) ∨
  (m.ty ∈ [MessageType.channelUpdate, .channelMember, .channelPin, .channelModerate] ∧
    v.isEnabled .channelMessages = true)

instance (v : EngineVersion) (m : Msg) : Decidable (Propagated v m) := by unfold Propagated; infer_instance

/-- The facts to be told, in order, for the results of one block: its propagated messages, its channel
registrations once ownership events are active, and a heartbeat on every `heartbeatInterval`-th block. -/
def news (c : BlockCtx) (hubs : List ZHub) : List BBody :=
  hubs.filterMap (fun
    | .mergeMessage (some m) => if Propagated c.version m then some (BBody.message (some m)) else none
    | .mergeOnChain (some e) =>
      if e.ty = 6 ∧ c.version.isEnabled .channelOwnershipEvents = true then some (BBody.onchain (some e)) else none
    | _ => none) ++
  (if c.height % heartbeatInterval c.network = 0 then [BBody.heartbeat] else [])

/-- A history of shard 0: each block's results and the events hash in its header. -/
structure ZBlock where
  ctx : BlockCtx
  hubs : List ZHub
  claimed : Bytes

/-- Committing blocks one after another from a database; the events of all blocks in order. -/
def shard0Run (H : Bytes → Bytes) (enc : BData → Bytes) : List ZBlock → Db BEvent → Option (Db BEvent × List (List BEvent))
  | [], db => some (db, [])
  | b :: bs, db =>
    match commitBlockEvents H enc db b.ctx b.hubs b.claimed with
    | none => none
    | some (db', es) =>
      match shard0Run H enc bs db' with
      | none => none
      | some (db'', ess) => some (db'', es :: ess)

/-- An event carries its content and the hash of that content. -/
def Authentic (H : Bytes → Bytes) (enc : BData → Bytes) (e : BEvent) : Prop :=
  ∃ d, e.data = some d ∧ e.hash = H (enc d)

end Verif.Spec
