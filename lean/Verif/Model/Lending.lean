import Verif.Model.StoreRun
import Verif.Model.Storage
import Verif.Spec.Store
/-!
Storage lending on shard 0: /repo/src/storage/store/block_engine.rs and
/repo/src/storage/store/account/storage_lend_store.rs.
-/
namespace Verif

/-- The unit type and units of a lend, the fields of `LendStorageBody` the slots are built from. -/
def lendOf (m : Msg) : Option (UnitType × Nat) :=
  match m.body with
  | .lend _ units ty => some (ty, units)
  | _ => none

/-- The lends `get_lent_storage` merges, storage_lend_store.rs:226-260: all pages of the user's adds, on the
database. -/
def lentOf (db : Db SVal) (fid : Nat) : List (UnitType × Nat) :=
  ((storedMessages lendStore db fid).filter lendStore.isAdd).filterMap lendOf

/-- The partial message `get_borrowed_storage` builds, storage_lend_store.rs:283-292. -/
def lendPartial (lender borrower : Nat) : Msg :=
  { fid := lender, ty := .none, ts := 0, hash := [], signer := [], body := .lend borrower 0 .legacy }

/-- One row of the index, storage_lend_store.rs:277-299 with the readers at 180-194: a row whose lend cannot be read
is skipped.  A key too short for the readers would panic; the index has none. -/
def borrowedRow (db : Db SVal) (key : Bytes) : Option (UnitType × Nat) :=
  match readFidKey key 5, readFidKey key 1 with
  | some lender, some borrower =>
    match lendStore.getAdd db OMap.empty (lendPartial lender borrower) with
    | .ok (some m) => lendOf m
    | _ => none
  | _, _ => none

/-- The lends `get_borrowed_storage` merges, storage_lend_store.rs:262-304, on the database. -/
def borrowedOf (db : Db SVal) (fid : Nat) : List (UnitType × Nat) :=
  (scanRows db (22 :: makeFidKey fid) (incrementVec (22 :: makeFidKey fid)) false).filterMap (fun r => borrowedRow db r.1)

/-- Network and versions in force: Mainnet, `StorageExpiryExtension2026`, `StorageLendingLimitFix`. -/
structure LendCfg where
  mainnet : Bool
  ext : Bool
  fix : Bool
  deriving DecidableEq, Repr

/-- The slot `get_storage_slot_for_fid` uses for lent or borrowed storage it does not count,
block_engine.rs:463-473: no units, expiring at `u32::MAX`. -/
def uncounted : Slot := ⟨0, 0, 0, 4294967295⟩

/-- The lend arm of `validate_user_message_with_verification_counts`, block_engine.rs:1038-1062.  `total` is the
user's purchased storage, `slot` what the transaction has left; `num_units` is cast to `u32`. -/
def admitLend (cfg : LendCfg) (total slot : Slot) (units : Nat) (ty : UnitType) : Bool :=
  !(cfg.mainnet && decide (total.units ty < 1000)) &&
  !decide (slot.units ty < UInt32.ofNat (units + if cfg.fix then 1 else 0))

/-- One deleted message of `on_merge_message`, block_engine.rs:1406-1418. -/
def giveBack (now : UInt32) (slot : Slot) (d : Msg) : Slot :=
  match lendOf d with
  | some (ty, n) => slot.merge now (Slot.fromLend ty n)
  | none => slot

/-- The merged message of `on_merge_message`, block_engine.rs:1396-1403. -/
def takeUnits (now : UInt32) (slot : Slot) (m : Msg) : Slot :=
  match lendOf m with
  | some (ty, n) => slot.sub now (Slot.fromLend ty n)
  | none => slot

/-- `on_merge_message`, block_engine.rs:1391-1422, called for the merge events only (1560-1575). -/
def onMerge (now : UInt32) (slot : Slot) : StoreEvent → Slot
  | .merge m deleted => deleted.foldl (giveBack now) (takeUnits now slot m)
  | _ => slot

/-- The state of the message loop: batch, storage left, what became of each message. -/
structure LLoop where
  s : SSt
  slot : Slot
  out : List (Except HubErr (List StoreEvent)) := []

/-- One round of the loop of `replay_snapchain_txn`, block_engine.rs:1507-1614, for a lend.  Signature, signer and
the checks of `validate_message` are left out: they can only refuse more. -/
def lStep (ctx : Nat → MergeCtx) (db : Db SVal) (cfg : LendCfg) (now : UInt32) (total : Nat → Slot) (x : LLoop) (m : Msg) :
    LLoop :=
  match m.body with
  | .lend _ units ty =>
    if admitLend cfg (total m.fid) x.slot units ty then
      match lendMerge db (ctx m.ts) m x.s with
      | (.error e, s') => { x with s := s', out := x.out ++ [.error e] }
      | (.ok evs, s') => ⟨s', evs.foldl (onMerge now) x.slot, x.out ++ [.ok evs]⟩
    else { x with out := x.out ++ [.error .validation] }
  | _ => x

/-- A transaction as the lending rules see it: the user, the local clock in seconds, the stored rents of every
user, the rents among the transaction's own system messages and its lends. -/
structure LendTxn where
  cfg : LendCfg
  now : UInt32
  fid : Nat
  rents : Nat → List OEvent
  pending : List OEvent
  msgs : List Msg

/-- `total_storage_purchased`, block_engine.rs:1039-1042: nothing pending, nothing lent or borrowed counted. -/
def LendTxn.total (x : LendTxn) (fid : Nat) : Slot :=
  match slotOf x.now x.cfg.mainnet x.cfg.ext (x.rents fid) [] fid uncounted uncounted with
  | .ok s => s
  | .error _ => {}

/-- `storage_slot_for_transaction(txn, version, true, false)`, block_engine.rs:1440-1447 and 1871-1891: lent
storage counted from the database, borrowed storage not counted. -/
def LendTxn.slot (x : LendTxn) (db : Db SVal) : Except HubErr Slot :=
  slotOf x.now x.cfg.mainnet x.cfg.ext (x.rents x.fid) x.pending x.fid (mergeLends x.now (lentOf db x.fid)) uncounted

/-- `replay_snapchain_txn`, block_engine.rs:1424-1701, for a transaction with lends. -/
def lTxn (ctx : Nat → MergeCtx) (st : StoreState) (x : LendTxn) : Except HubErr LLoop :=
  match x.slot st.db with
  | .error e => .error e
  | .ok slot => .ok (x.msgs.foldl (lStep ctx st.db x.cfg x.now x.total) ⟨st.pend, slot, []⟩)

/-- One step of shard 0. -/
inductive LOp where
  | txn (x : LendTxn)
  | commit | drop
  | block (height : Nat)

/-- Run one step; a transaction that aborts leaves the batch as it was (the block fails). -/
def lExec (ctx : Nat → MergeCtx) (st : StoreState) : LOp → StoreState
  | .txn x => match lTxn ctx st x with
    | .ok y => { st with pend := y.s }
    | .error _ => st
  | .commit => st.exec lendStore ctx .commit
  | .drop => st.exec lendStore ctx .drop
  | .block h => st.exec lendStore ctx (.block h)

/-- Run a history. -/
def lRun (ctx : Nat → MergeCtx) (st : StoreState) (ops : List LOp) : StoreState := ops.foldl (lExec ctx) st

end Verif
