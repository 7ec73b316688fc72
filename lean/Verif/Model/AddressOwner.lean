import Verif.Model.StoreRun
/-!
Who owns an address verified by several users:
/repo/src/storage/store/account/verification_store.rs:330-436.
-/
namespace Verif

/-- The scan callback, verification_store.rs:368-371. -/
def collectRow (acc : OMap Bytes SVal) (k : Bytes) (v : SVal) : Except HubErr (OMap Bytes SVal × Bool) :=
  .ok (acc.put k v, false)

/-- The rows of an address with the batch laid over them, verification_store.rs:361-389. -/
def addressRecords (db : Db SVal) (t : Option (Txn SVal)) (p : Bytes) : Except HubErr (OMap Bytes SVal) :=
  match forEachByPrefix db (some p) (some (incrementVec p)) {} collectRow OMap.empty with
  | .error e => .error e
  | .ok (records, _) =>
    match t with
    | none => .ok records
    | some t => .ok ((t.rows.filter (fun r => p.isPrefixOf r.1)).foldl Db.applyRow records)

/-- One well-formed index row, verification_store.rs:391-401: the fid after the prefix and the ts_hash.
Only plain values have a length of 24 bytes here; encoded messages are never stored under this prefix. -/
def addressEntry (p : Bytes) : Bytes × SVal → Option (Nat × Bytes)
  | (k, .raw v) => if k.length = p.length + 4 ∧ v.length = 24 then some (fromBe (k.drop p.length), v) else none
  | _ => none

/-- `get_verifications_by_address`, verification_store.rs:346-404. -/
def verificationsByAddress (db : Db SVal) (t : Option (Txn SVal)) (address : Bytes) :
    Except HubErr (List (Nat × Bytes)) :=
  if address = [] then .ok []
  else match addressRecords db t (14 :: address) with
    | .error e => .error e
    | .ok records => .ok (records.rows.filterMap (addressEntry (14 :: address)))

/-- `(ts_hash, Reverse(fid))` comparison, verification_store.rs:432: `a ≤ b`. -/
def candidateLe (a b : Nat × Bytes) : Bool := Bytes.blt a.2 b.2 || (a.2 == b.2 && decide (b.1 ≤ a.1))

/-- One step of `Iterator::max`: the later of two equal candidates is kept. -/
def maxStep (best : Option (Nat × Bytes)) (c : Nat × Bytes) : Option (Nat × Bytes) :=
  match best with
  | none => some c
  | some b => if candidateLe b c then some c else some b

/-- `select_verification_address_winner`, verification_store.rs:426-436. -/
def selectWinner (candidates : List (Nat × Bytes)) : Option Nat := (candidates.foldl maxStep none).map (·.1)

end Verif
