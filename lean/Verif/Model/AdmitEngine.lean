import Verif.Model.Admission
import Verif.Model.ShardEngine
/-!
The engine of a data shard together with its on-chain events and keys: `Elsewhere` of `Model/ShardEngine`, filled in with
`Model/Admission`.  Line numbers without a file are those of /repo/src/storage/store/engine.rs.

What is still left open (names, username proofs, channels, storage limits) is `X` with arbitrary functions on it, which
may read the on-chain and key tables but not write them.  Simplification: the replica of the channel owners, rows of the
on-chain tables of their own (881-961), is part of `X`.
-/
namespace Verif

/-- What remains open, and the libraries.  `wire` is the message as it came over the network, of which the store model
keeps a part. -/
structure AdmitCfg (X F : Type) where
  env : VEnv
  crypto : KeyCrypto
  net : Network
  wire : Msg → WMsg
  /-- what validation reads of the message stores and the names -/
  view : StoreState → X → ProfileView
  /-- the transaction hash of an event, /repo/proto/definitions/onchain_event.proto:19-36 -/
  txHash : OEvent → Bytes
  /-- the events of a merged key message, /repo/src/storage/store/account/gasless_key_merge.rs -/
  keyEvents : AdmitNode → Msg → List TrieEvent
  fresh : X → Nat → X
  commit : X → X
  fname : AdmitNode → X → F → X × Option (Option TrieEvent × Nat)
  merge : AdmitNode → Bool → X → Msg → X × Except HubErr (List TrieEvent)
  replica : AdmitNode → X → OEvent → X × Bool
  slot : Nat → EngineVersion → StoreState → AdmitNode × X → Nat → MessageType → Option Slot
  pruneNames : X → Nat → Nat → Nat → X × List TrieEvent
  active : Nat → EngineVersion → StoreState → AdmitNode × X → ETxn F → Option Bool

namespace AdmitCfg
variable {X F : Type} (a : AdmitCfg X F)

/-- `merge_onchain_event`, 1289-1315. -/
def onchain (r : AdmitNode × X) (e : OEvent) : (AdmitNode × X) × Option (Nat × Nat × Bytes × Nat) :=
  (((r.1.exec a.env a.crypto a.net (.chain e)).2, r.2),
    match (mergeOnchainEvent a.env.keccak false r.1.chain.db r.1.chain.pend e).1 with
    | .ok () => some (e.fid, e.ty, a.txHash e, e.log)
    | .error _ => none)

/-- `validate_user_message`, 2035-2226.  The error itself is not kept. -/
def validate (v : EngineVersion) (ts : Nat) (st : StoreState) (r : AdmitNode × X) (m : Msg) : (AdmitNode × X) × Option HubErr :=
  match validateUserMessage a.env a.net (a.view st r.2) r.1 v ts (a.wire m) with
  | .error _ => (r, some .validation)
  | .ok t =>
    match (a.wire m).data with
    | none => (r, some .validation)
    | some d =>
      (({ r.1 with
          keys := { r.1.keys with txn := t }
          keyLog := if d.type.isKey then r.1.keyLog else r.1.keyLog ++ useNote r.1 v d (a.wire m).signer }, r.2), none)

/-- `merge_message` for what is of no message store, 1829-1897. -/
def mergeOther (channels : Bool) (r : AdmitNode × X) (m : Msg) : (AdmitNode × X) × Except HubErr (List TrieEvent) :=
  if m.ty.isKey then
    match r.1.mergeKey a.crypto a.net (a.wire m) with
    | (true, n) => ((n, r.2), .ok (a.keyEvents r.1 m))
    | (false, n) => ((n, r.2), .error .validation)
  else
    match a.merge r.1 channels r.2 m with
    | (x, res) => ((r.1, x), res)

/-- The rest of the node.  A fresh batch (403-408) and the commit (2463-2468) are those of all tables. -/
def rest : Elsewhere (AdmitNode × X) F where
  fresh := fun r h => ((r.1.exec a.env a.crypto a.net .drop).2, a.fresh r.2 h)
  commit := fun r => ((r.1.exec a.env a.crypto a.net .commit).2, a.commit r.2)
  onchain := a.onchain
  fname := fun r f => ((r.1, (a.fname r.1 r.2 f).1), (a.fname r.1 r.2 f).2)
  validate := a.validate
  merge := a.mergeOther
  replica := fun r e => ((r.1, (a.replica r.1 r.2 e).1), (a.replica r.1 r.2 e).2)
  slot := a.slot
  pruneNames := fun r fid n l => ((r.1, (a.pruneNames r.2 fid n l).1), (a.pruneNames r.2 fid n l).2)
  active := a.active

end AdmitCfg
end Verif
