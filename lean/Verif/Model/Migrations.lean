import Verif.Model.StoreRun
import Verif.Model.OnChain
/-!
Database migrations: the runner (/repo/src/storage/store/migrations/mod.rs) and the migration that rebuilds
the index of verifications by address (migrations/m2_verification_by_address_index.rs, below: m2), running in
the background while the engine merges messages.

The machine below makes one database access of the migration per step.  The engine's calls, new
registrations, failures and crashes may come between any two steps.  The verification rows are those of
`StoreState`, the on-chain rows are in a map of their own (their keys start with 12).  The first migration
(m1_fix_fname_index.rs) touches neither and is one step here.
-/
namespace Verif

/-- `FIDIterator`, /repo/src/storage/store/account/onchain_event_store.rs:1375-1380. -/
structure FidIter where
  last : Nat := 0
  queue : List Nat := []
  deriving DecidableEq, Repr

/-- The scan callback of `FIDIterator::fetch`, onchain_event_store.rs:1422-1450; the state is `self.fids` and
`last_fid`. -/
def fetchStep (acc : List Nat × Nat) (_ : Bytes) (v : OVal) : Except HubErr ((List Nat × Nat) × Bool) :=
  match v with
  | .event e => match e.body with
    | .idRegister _ .register =>
      let acc' := if acc.1.getLast? = some e.fid then acc else (acc.1 ++ [e.fid], e.fid)
      .ok (acc', decide (acc'.1.length ≥ 100))
    | _ => .ok (acc, false)
  | _ => .error .decode

/-- `FIDIterator::fetch`, onchain_event_store.rs:1403-1456: the new `fids` and `last_fid`. -/
def FidIter.fetch (reg : Db OVal) (it : FidIter) : Except HubErr (List Nat × Nat) :=
  match forEachPaged reg (some (oTypePrefix 3 ++ makeFidKey (it.last + 1))) (some (incrementVec (oTypePrefix 3)))
      { pageSize := some 100 } fetchStep (it.queue, 0) with
  | .error e => .error e
  | .ok (acc, _) => .ok acc

/-- The end of `FIDIterator::next`, onchain_event_store.rs:1479-1484. -/
def FidIter.pop (it : FidIter) : Option Nat × FidIter :=
  match it.queue with
  | [] => (none, it)
  | f :: rest => (some f, ⟨f, rest⟩)

/-- `FIDIterator::next`, onchain_event_store.rs:1462-1485.  An error is kept for `take_error`, which the
migration asks for when the iteration ends. -/
def FidIter.next (reg : Db OVal) (it : FidIter) : Except HubErr (Option Nat × FidIter) :=
  if it.queue = [] then
    match it.fetch reg with
    | .error e => .error e
    | .ok (q, l) => if l > 0 then .ok (FidIter.pop { it with queue := q }) else .ok (none, { it with queue := q })
  else .ok it.pop

/-- `make_verification_by_address_key`, verification_store.rs:215-229. -/
def byAddressKey (address : Bytes) (fid : Nat) : Bytes := 14 :: (address ++ makeFidKey fid)

/-- `make_verification_adds_key`, verification_store.rs:231-238. -/
def verificationAddsKey (fid : Nat) (address : Bytes) : Bytes := makeUserKey fid ++ 93 :: address

/-- Phase 1, m2 64-91: the addresses a user has verified. -/
def addressesOf (db : Db SVal) (fid : Nat) : List Bytes :=
  let p := makeUserKey fid ++ [93]
  let b := iterBounds (some p) (some (incrementVec p)) {}
  ((scanRows db b.1 b.2 false).map (fun r => r.1.drop p.length)).filter (fun a => a ≠ [])

/-- Phase 2, m2 106-146: one transaction per user and address.  The selector row is read under a lock, so
reading it and writing the index row are one step.  Only plain values have 24 bytes here: no message is
stored under these keys. -/
def backfill (db : Db SVal) (fid : Nat) (address : Bytes) : Db SVal :=
  match db.get (verificationAddsKey fid address) with
  | some (.raw th) => if th.length = 24 then db.put (byAddressKey address fid) (.raw th) else db
  | _ => db

/-- `is_old_verification_by_address_value`, m2 32-34. -/
def isLegacyValue : SVal → Bool
  | .raw b => b.length = 4
  | _ => false

/-- `DELETE_CHUNK_SIZE`, m2 18. -/
def sweepChunk : Nat := 10000

/-- The scan callback of the sweep, m2 192-201. -/
def sweepStep (acc : List Bytes) (k : Bytes) (v : SVal) : Except HubErr (List Bytes × Bool) :=
  if isLegacyValue v then .ok (acc ++ [k], decide ((acc ++ [k]).length ≥ sweepChunk)) else .ok (acc, false)

/-- The scan of one pass of the sweep, m2 183-203. -/
def sweepScan (db : Db SVal) (resume : Bytes) : Except HubErr (List Bytes) :=
  match forEachByPrefix db (some resume) (some (incrementVec [14])) {} sweepStep [] with
  | .error e => .error e
  | .ok (acc, _) => .ok acc

/-- Where the migration task is. -/
inductive MigPc where
  /-- no task: never started, failed, or all migrations done -/
  | off
  /-- the first migration -/
  | first
  /-- m2, about to ask for the next user -/
  | users (it : FidIter)
  /-- m2, about to scan a user's verifications -/
  | user (fid : Nat) (it : FidIter)
  /-- m2, between the transactions of a user -/
  | entries (fid : Nat) (todo : List Bytes) (it : FidIter)
  /-- m2, about to scan for legacy slots -/
  | sweep (resume : Bytes)
  /-- m2, about to commit the deletion of a chunk -/
  | delete (chunk : List Bytes)
  /-- m2 has returned, the version is not written yet -/
  | returned
  deriving DecidableEq, Repr

/-- A shard with a migration task.  `version` is the schema version row (`get_schema_version`,
/repo/src/storage/store/stores.rs:388-393).  The in-progress rows are not modelled: they only decide what is
logged (mod.rs:178-206). -/
structure Mig where
  live : StoreState := {}
  reg : Db OVal := OMap.empty
  version : Nat := 0
  pc : MigPc := .off

namespace Mig

/-- `run_pending_migrations` up to the start of the task, mod.rs:134-228: the migrations after the stored
version are run in order, and nothing is run when the version is the latest one (2).  A task that was
interrupted starts over. -/
def boot (s : Mig) : Mig :=
  if s.version ≥ 2 then { s with pc := .off }
  else if s.version = 1 then { s with pc := .users {} }
  else { s with pc := .first }

/-- One access of the task, m2 48-233 and mod.rs:230-272. -/
def step (s : Mig) : Mig :=
  match s.pc with
  | .off => s
  | .first => { s with version := 1, pc := .users {} }
  | .users it => match it.next s.reg with
    | .error _ => { s with pc := .off }
    | .ok (none, _) => { s with pc := .sweep [14] }
    | .ok (some f, it') => { s with pc := .user f it' }
  | .user f it => { s with pc := .entries f (addressesOf s.live.db f) it }
  | .entries _ [] it => { s with pc := .users it }
  | .entries f (a :: as) it =>
    { s with live := { s.live with db := backfill s.live.db f a }, pc := .entries f as it }
  | .sweep resume => match sweepScan s.live.db resume with
    | .error _ => { s with pc := .off }
    | .ok [] => { s with pc := .returned }
    | .ok chunk => { s with pc := .delete chunk }
  | .delete chunk =>
    { s with
      live := { s.live with db := Db.commit s.live.db (chunk.foldl Txn.stageDel OMap.empty) }
      pc := if chunk.length < sweepChunk then .returned else .sweep (chunk.getLast?.getD [] ++ [0]) }
  | .returned => { s with version := 2, pc := .off }

end Mig

/-- What can happen on the shard. -/
inductive MigOp where
  /-- a call of the engine on the verification store -/
  | live (o : StoreOp)
  /-- a registration event is stored, `merge_onchain_event`, onchain_event_store.rs:1075-1119; only the primary
  row matters here -/
  | chain (e : OEvent)
  /-- the migration task makes its next access -/
  | step
  /-- an access of the task fails; the task ends, mod.rs:243-262 -/
  | fail
  /-- the process stops (the pending batch is lost) and starts again -/
  | crash
  deriving DecidableEq, Repr

namespace Mig

/-- Run one of them. -/
def exec (ctx : Nat → MergeCtx) (s : Mig) : MigOp → Mig
  | .live o => { s with live := s.live.exec verificationStore ctx o }
  | .chain e => { s with reg := s.reg.put (oPrimaryKey e) (.event e) }
  | .step => s.step
  | .fail => { s with pc := .off }
  | .crash => { s with live := s.live.exec verificationStore ctx .drop }.boot

/-- Run a history. -/
def run (ctx : Nat → MergeCtx) (s : Mig) (ops : List MigOp) : Mig := ops.foldl (exec ctx) s

end Mig
end Verif
