import Verif.Model.Shard
import Verif.Model.StoreTrie
import Verif.Model.Admission
/-!
Usernames and primary addresses: how a data shard keeps the profile of a user in step with the name registry and the
verifications.  Line numbers without a file are those of /repo/src/storage/store/engine.rs.

Simplifications: the registry and the message stores are parts of one database and one batch; here they are side by side,
each with its own event numbers.  The trie is not modelled (C84 is about it).
-/
namespace Verif

/-- What is fixed for a node: libraries, base-58 text of an address (`bs58::encode`), channel naming and the merge
context, the version by the wall clock, and two fields of message bodies that the store model leaves out (`ProfileView`). -/
structure ProfileEnv where
  lib : VEnv
  solText : Bytes → Bytes
  channelOf : Bytes → Option Bytes
  ctx : Nat → MergeCtx
  wall : EngineVersion
  proofFid : Msg → Nat
  protocol : Msg → Int

/-- The message stores, the name registry, and the messages deleted by merges of verifications in the transaction that
is running (the part of its events `handle_delete_side_effects` looks at). -/
structure ProfileNode where
  store : StoreState := {}
  names : FState := {}
  deleted : List Msg := []

/-- The filter of `get_user_data_by_fid_and_type`, /repo/src/storage/store/account/user_data_store.rs:222-231. -/
def Msg.setsField (m : Msg) (ty : Nat) : Bool :=
  match m.body with
  | .userData t _ => t == ty
  | _ => false

/-- `get_user_data_by_fid_and_type`, user_data_store.rs:215-244: the committed database only.  Both callers treat every
error as "none". -/
def userDataOf (db : Db SVal) (fid ty : Nat) : Option Msg :=
  match getMessagesPageByPrefix SVal.decodeMsg db (makeMessagePrimaryKey fid userDataStore.set none) {}
      (fun m => userDataStore.isAdd m && m.setsField ty) with
  | .error _ => none
  | .ok p => match p.messages with
    | [m] => some m
    | _ => none

/-- What happens to a profile. -/
inductive ProfileOp where
  /-- A user data message of a user, 1566-1604; `pro` is the answer of the tier tables. -/
  | set (pro : Bool) (v : EngineVersion) (m : Msg)
  /-- A verification or its removal, merged (1570-1584) or replayed from shard 0 (`merge_replayed_verification`, 814-819 and 1913-1938). -/
  | verification (force : Bool) (m : Msg)
  /-- A valid name transfer, 1316-1398. -/
  | transfer (p : FProof) (source : Nat)
  /-- The end of a transaction, 1648-1662. -/
  | finish (v : EngineVersion)
  /-- Anything else in the message stores. -/
  | other (o : ShardOp)
  /-- `db.commit(txn)`, 2421-2470. -/
  | commit
  /-- Drop the batch, 306-397. -/
  | drop
  /-- `set_current_height`, 403-408. -/
  | block (height : Nat)
  deriving DecidableEq, Repr

namespace ProfileNode

/-- What validation reads. -/
def view (e : ProfileEnv) (n : ProfileNode) : ProfileView where
  sdb := n.store.db
  stxn := n.store.pend.txn
  fdb := n.names.db
  ftxn := n.names.txn
  wall := e.wall
  proofFid := e.proofFid
  protocol := e.protocol

/-- A user data message passes validation: `validate_user_data_add_body` and the checks that read the state. -/
def accepts (e : ProfileEnv) (n : ProfileNode) (pro : Bool) (v : EngineVersion) (m : Msg) : Bool :=
  match m.body with
  | .userData ty value =>
    match validateUserData e.lib ty value pro v with
    | .error _ => false
    | .ok () => match validateProfile e.lib (n.view e) v m.fid (some (.userData ty value)) with
      | .error _ => false
      | .ok () => true
  | _ => false

/-- `Store::revoke` of a user data message. -/
def revoke (n : ProfileNode) (u : Msg) : Except HubErr StoreEvent × ProfileNode :=
  ((userDataStore.revoke u n.store.pend).1, { n with store := n.store.after (userDataStore.revoke u n.store.pend) })

/-- The address as users write it and the user data type for it, `check_and_revoke_primary_address`, 1714-1724. -/
def primaryField (e : ProfileEnv) (m : Msg) (address : Bytes) : Option (Nat × Bytes) :=
  if e.protocol m = 0 then some (11, checksum e.lib.keccak address)
  else if e.protocol m = 1 then some (12, e.solText address)
  else none

/-- `check_and_revoke_primary_address`, 1707-1745. -/
def revokePrimary (e : ProfileEnv) (n : ProfileNode) (m : Msg) (address : Bytes) : Except HubErr Unit × ProfileNode :=
  match primaryField e m address with
  | none => (.error .validation, n)
  | some (ty, text) =>
    match userDataOf n.store.db m.fid ty with
    | none => (.ok (), n)
    | some u =>
      if u.body = .userData ty text then
        match n.revoke u with
        | (.ok _, n') => (.ok (), n')
        | (.error err, n') => (.error err, n')
      else (.ok (), n)

/-- The loop of `handle_delete_side_effects`, 1765-1783, stopping at the first error. -/
def sideEffects (e : ProfileEnv) : List Msg → ProfileNode → Except HubErr Unit × ProfileNode
  | [], n => (.ok (), n)
  | m :: ms, n =>
    match m.body with
    | .verificationAdd address =>
      match n.revokePrimary e m address with
      | (.ok (), n') => sideEffects e ms n'
      | (.error err, n') => (.error err, n')
    | _ => sideEffects e ms n

/-- `handle_delete_side_effects`, 1749-1785. -/
def atEnd (e : ProfileEnv) (n : ProfileNode) (v : EngineVersion) : Except HubErr Unit × ProfileNode :=
  if v.isEnabled .primaryAddresses then sideEffects e n.deleted n else (.ok (), n)

/-- The merge of a verification. -/
def verificationOp (force : Bool) (m : Msg) : StoreOp := if force then .force m else .merge m

/-- The messages an event reports as deleted by a merge. -/
def _root_.Verif.StoreEvent.deleted : StoreEvent → List Msg
  | .merge _ ds => ds
  | _ => []

/-- The deleted messages of the events a call returned. -/
def deletedBy : Except HubErr (List StoreEvent) → List Msg
  | .ok es => es.flatMap StoreEvent.deleted
  | .error _ => []

/-- Revoke the username of the user a name is taken from, 1357-1385.  Errors are logged. -/
def revokeUsername (n : ProfileNode) (source : Nat) : ProfileNode :=
  if source > 0 then
    match userDataOf n.store.db source 6 with
    | some u => (n.revoke u).2
    | none => n
  else n

/-- Run one step. -/
def exec (e : ProfileEnv) (n : ProfileNode) : ProfileOp → ProfileNode
  | .set pro v m =>
    if n.accepts e pro v m then { n with store := n.store.shardExec e.channelOf e.ctx (.call .userData (.merge m)) } else n
  | .verification force m =>
    { n with
      store := n.store.shardExec e.channelOf e.ctx (.call .verifications (verificationOp force m))
      deleted := n.deleted ++ deletedBy (n.store.returned verificationStore e.ctx (verificationOp force m)) }
  | .transfer p source => revokeUsername { n with names := (mergeFname n.names p).2 } source
  | .finish v => { (n.atEnd e v).2 with deleted := [] }
  | .other o => { n with store := n.store.shardExec e.channelOf e.ctx o }
  | .commit => { n with store := n.store.exec userDataStore e.ctx .commit, names := n.names.exec .commit }
  | .drop => { store := n.store.exec userDataStore e.ctx .drop, names := n.names.exec .drop, deleted := [] }
  | .block h => { n with store := n.store.exec userDataStore e.ctx (.block h), names := n.names.exec (.block h) }

/-- Run a history. -/
def run (e : ProfileEnv) (n : ProfileNode) (ops : List ProfileOp) : ProfileNode := ops.foldl (exec e) n

end ProfileNode
end Verif
