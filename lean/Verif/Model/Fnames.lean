import Verif.Model.KV
import Verif.Model.Keys
import Verif.Model.Event
/-!
Fnames: names handed out by the fname server.  `merge_username_proof` of
/repo/src/storage/store/account/user_data_store.rs and the rows of
/repo/src/storage/store/account/name_registry_events.rs.
-/
namespace Verif

/-- `UserNameProof`, /repo/proto/definitions/username_proof.proto, cut to the fields the store reads
(the owner address and the type are carried along only). -/
structure FProof where
  name : Bytes
  fid : Nat
  ts : Nat
  sig : Bytes
  deriving DecidableEq, Repr

/-- A database value: an encoded proof, a key, or an encoded event. -/
inductive FVal where
  | proof (p : FProof)
  | key (k : Bytes)
  | event (id : Nat) (p : FProof) (deleted : Option FProof)
  deriving DecidableEq, Repr

/-- `make_fname_username_proof_key`, name_registry_events.rs:15-20. -/
def fnameKey (name : Bytes) : Bytes := 11 :: name
/-- `make_fname_username_proof_by_fid_key`, name_registry_events.rs:23-29. -/
def fnameByFidKey (fid : Nat) : Bytes := 15 :: makeFidKey fid

/-- Decoding a stored proof, name_registry_events.rs:42-48. -/
def decodeProof : Option FVal → Except HubErr (Option FProof)
  | none => .ok none
  | some (.proof p) => .ok (some p)
  | some _ => .error .internal

/-- `get_username_proof`, name_registry_events.rs:31-49. -/
def getFname (db : Db FVal) (t : Txn FVal) (name : Bytes) : Except HubErr (Option FProof) :=
  decodeProof (getFromDbOrTxn db t (fnameKey name))

/-- `get_fname_proof_by_fid`, name_registry_events.rs:51-71: the committed database only.  A value that is
not a key reads as that value's bytes in the code; here it is an error. -/
def getFnameByFid (db : Db FVal) (fid : Nat) : Except HubErr (Option FProof) :=
  match db.get (fnameByFidKey fid) with
  | none => .ok none
  | some (.key k) => decodeProof (db.get k)
  | some _ => .error .internal

/-- `if let Some(existing_fid)`: drop the old owner's by-user row, name_registry_events.rs:87-90, 104-107. -/
def dropOldOwner (t : Txn FVal) : Option Nat → Txn FVal
  | some f => t.stageDel (fnameByFidKey f)
  | none => t

/-- `put_username_proof_transaction`, name_registry_events.rs:73-91. -/
def putFname (t : Txn FVal) (p : FProof) (existing : Option Nat) : Txn FVal :=
  dropOldOwner ((t.stagePut (fnameKey p.name) (.proof p)).stagePut (fnameByFidKey p.fid) (.key (fnameKey p.name))) existing

/-- `delete_username_proof_transaction`, name_registry_events.rs:94-108. -/
def deleteFname (t : Txn FVal) (p : FProof) (existing : Option Nat) : Txn FVal :=
  dropOldOwner (t.stagePut (fnameKey p.name) (.proof p)) existing

/-- `username_proof_compare`, user_data_store.rs:318-327. -/
def fnameCompare (a b : FProof) : Int :=
  if a.ts < b.ts then -1 else if a.ts > b.ts then 1 else bytesCompare a.sig b.sig

/-- The admission checks of `merge_username_proof`, user_data_store.rs:269-296. -/
def fnameAdmit (p : FProof) : Option FProof → Except HubErr (Option Nat)
  | some e =>
    if fnameCompare e p = 0 then .error .duplicate
    else if fnameCompare e p > 0 then .error .conflict
    else .ok (some e.fid)
  | none => if p.fid = 0 then .error .conflict else .ok none

/-- The committed database, the batch and the event ids. -/
structure FState where
  db : Db FVal := OMap.empty
  txn : Txn FVal := OMap.empty
  gen : IdGen := {}

/-- `merge_username_proof`, user_data_store.rs:261-316.  Returns what was replaced; the batch keeps its
writes when recording the event fails. -/
def mergeFname (st : FState) (p : FProof) : Except HubErr (Option FProof) × FState :=
  match getFname st.db st.txn p.name with
  | .error e => (.error e, st)
  | .ok existing =>
    match fnameAdmit p existing with
    | .error e => (.error e, st)
    | .ok oldFid =>
      let t := if p.fid = 0 then deleteFname st.txn p oldFid else putFname st.txn p oldFid
      match commitEvent st.gen t false (fun id => FVal.event id p existing) with
      | (.ok (_, t'), g) => (.ok existing, { st with txn := t', gen := g })
      | (.error err, g) => (.error err, { st with txn := t, gen := g })

/-- The calls. -/
inductive FnameOp where
  | merge (p : FProof)
  | commit
  | drop
  | block (height : Nat)
  deriving DecidableEq, Repr

namespace FState
/-- Run one call. -/
def exec (st : FState) : FnameOp → FState
  | .merge p => (mergeFname st p).2
  | .commit => { st with db := Db.commit st.db st.txn, txn := OMap.empty }
  | .drop => { st with txn := OMap.empty }
  | .block h => { st with gen := st.gen.setHeight h }
/-- Run a history. -/
def run (st : FState) (ops : List FnameOp) : FState := ops.foldl exec st
end FState

end Verif
