import Verif.Model.StoreRun
/-!
Username proofs (ENS names and basenames) signed by users:
/repo/src/storage/store/account/username_proof_store.rs, on top of the generic store.
-/
namespace Verif

/-- `make_username_proof_by_name_key`, username_proof_store.rs:340-347. -/
def nameKey (name : Bytes) : Bytes := 16 :: name

/-- `make_username_proof_by_fid_key`, username_proof_store.rs:350-358. -/
def nameAddKey (fid : Nat) (name : Bytes) : Bytes := makeUserKey fid ++ 99 :: name

/-- `UsernameProofStoreDef`, username_proof_store.rs:25-337, apart from `get_merge_conflicts`.  The index
row maps the name to the user; an empty name is an error (115-181). -/
def nameStore : StoreDef where
  set := 7
  addType := .usernameProof
  removeType := .none
  compactType := .none
  addKey m := match m.body with
    | .usernameProof n => .ok (nameAddKey m.fid n)
    | _ => .error .validation
  removeKey _ := .error .validation
  indexRows _ m := match m.body with
    | .usernameProof n => if n = [] then .error .invalidParameter else .ok [(nameKey n, .raw (makeFidKey m.fid))]
    | _ => .error .validation
  indexKeys _ m := match m.body with
    | .usernameProof n => if n = [] then .error .invalidParameter else .ok [nameKey n]
    | _ => .error .validation
  compare := defaultCompare .usernameProof .none

/-- `read_fid_key(.., 0)` on a stored value, /repo/src/storage/store/account/message.rs:144-151. -/
def readFid (v : SVal) : Nat := fromBe ((StoreDef.rawOf v).take 4)

/-- `if let Ok(Some(existing_message)) = get_message(..)`, username_proof_store.rs:217-223: an error reads
as nothing found. -/
def nameStoredMessage (db : Db SVal) (fid : Nat) (th : Bytes) : SM (Option Msg) := fun s =>
  match nameStore.getMessage db fid th s with
  | (.ok o, s') => (.ok o, s')
  | (.error _, s') => (.ok none, s')

/-- The comparison with the stored proof, username_proof_store.rs:224-247. -/
def nameCompare (stored th : Bytes) : Option Msg → SM (List Msg)
  | none => pure []
  | some old =>
    let c := nameStore.compare .usernameProof stored .usernameProof th
    if c > 0 then SM.fail .conflict
    else if c = 0 then SM.fail .duplicate
    else pure [old]

/-- `vec_to_u8_24(&existing_message_ts_hash)?`, username_proof_store.rs:222: a missing row is an error. -/
def nameStoredTsHash : Option SVal → Except HubErr Bytes
  | none => .error .internal
  | some v => StoreDef.asTsHash v

/-- The conflicts with the proof the by-name row points at, username_proof_store.rs:211-249. -/
def nameConflictsAt (db : Db SVal) (name th : Bytes) : Option SVal → SM (List Msg)
  | none => pure []
  | some fidBytes =>
    if readFid fidBytes = 0 then pure []
    else do
      let sel ← SM.read db (nameAddKey (readFid fidBytes) name)
      let stored ← SM.lift (nameStoredTsHash sel)
      let old ← nameStoredMessage db (readFid fidBytes) stored
      nameCompare stored th old

/-- `get_merge_conflicts`, username_proof_store.rs:184-253. -/
def nameConflicts (db : Db SVal) (m : Msg) (th : Bytes) : SM (List Msg) :=
  match m.body with
  | .usernameProof name => do
    let row ← SM.read db (nameKey name)
    nameConflictsAt db name th row
  | _ => SM.fail .validation

/-- `merge` and `merge_add` (store.rs:804-835, 1019-1065) with the overridden `get_merge_conflicts`. -/
def nameMerge (db : Db SVal) (ctx : MergeCtx) (m : Msg) : SM StoreEvent :=
  if !nameStore.isAdd m then SM.fail .validation
  else do
    let th ← SM.lift (makeTsHash m.ts m.hash)
    let conflicts ← nameConflicts db m th
    nameStore.deleteMany conflicts
    nameStore.mergeAddWithConflicts ctx th m conflicts

/-- `get_username_proof`, username_proof_store.rs:404-433. -/
def getUsernameProof (db : Db SVal) (t : Txn SVal) (name : Bytes) : Except HubErr (Option Msg) :=
  match getFromDbOrTxn db t (nameKey name) with
  | none => .error .notFound
  | some v => nameStore.getAdd db t ⟨readFid v, .usernameProof, 0, [], [], .usernameProof name⟩

/-- `get_username_proof_by_fid_and_name`, username_proof_store.rs:435-455: the committed database only. -/
def getUsernameProofByFid (db : Db SVal) (fid : Nat) (name : Bytes) : Except HubErr (Option Msg) :=
  nameStore.getAdd db OMap.empty ⟨fid, .usernameProof, 0, [], [], .usernameProof name⟩

/-- The calls made on the username proof store.  `revoke` and `prune` are the single-message steps of
`revoke_messages_by_signer` and `prune_messages` (store.rs:1169-1292). -/
inductive NameOp where
  | merge (m : Msg)
  | revoke (m : Msg)
  | prune (m : Msg)
  | commit
  | drop
  | block (height : Nat)
  deriving DecidableEq, Repr

namespace StoreState

/-- Run one call on the username proof store. -/
def nameExec (ctx : Nat → MergeCtx) (st : StoreState) : NameOp → StoreState
  | .merge m => st.after (nameMerge st.db (ctx m.ts) m st.pend)
  | .revoke m => st.after (nameStore.revoke m st.pend)
  | .prune m => st.after (nameStore.pruneMessage m st.pend)
  | .commit => { db := Db.commit st.db st.pend.txn, pend := { st.pend with txn := OMap.empty } }
  | .drop => { st with pend := { st.pend with txn := OMap.empty } }
  | .block h => { st with pend := { st.pend with gen := st.pend.gen.setHeight h } }

/-- Run a history. -/
def nameRun (ctx : Nat → MergeCtx) (st : StoreState) (ops : List NameOp) : StoreState :=
  ops.foldl (nameExec ctx) st

end StoreState

end Verif
