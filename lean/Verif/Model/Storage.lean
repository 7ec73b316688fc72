import Verif.Model.OnChain
import Verif.Model.Store
/-!
Storage slots and message limits: /repo/src/storage/store/account/onchain_event_store.rs:886-1056 and
/repo/src/storage/store/stores.rs.  Arithmetic is that of a release build (/repo/Dockerfile:42, no
`overflow-checks`): `u32` operations wrap.
-/
namespace Verif

/-- `StorageSlot`, onchain 886-892. -/
structure Slot where
  legacy : UInt32 := 0
  y2024 : UInt32 := 0
  y2025 : UInt32 := 0
  until_ : UInt32 := 0
  deriving DecidableEq, Repr

namespace Slot

/-- `units_for`, onchain 908-914. -/
def units (s : Slot) : UnitType → UInt32
  | .legacy => s.legacy
  | .y2024 => s.y2024
  | .y2025 => s.y2025

/-- A slot with units of one type. -/
def ofType (ty : UnitType) (n : UInt32) (until_ : UInt32) : Slot :=
  match ty with
  | .legacy => ⟨n, 0, 0, until_⟩
  | .y2024 => ⟨0, n, 0, until_⟩
  | .y2025 => ⟨0, 0, n, until_⟩

/-- `is_active`, onchain 1026-1032; `now` is the local clock in seconds, as a `u32`. -/
def isActive (now : UInt32) (s : Slot) : Bool := decide (now < s.until_)

/-- `merge`, onchain 1034-1047. -/
def merge (now : UInt32) (s other : Slot) : Slot :=
  if !other.isActive now then s
  else if !s.isActive now then other
  else ⟨s.legacy + other.legacy, s.y2024 + other.y2024, s.y2025 + other.y2025,
    if other.until_ < s.until_ then other.until_ else s.until_⟩

/-- `sub`, onchain 1049-1055. -/
def sub (now : UInt32) (s other : Slot) : Slot :=
  if other.isActive now then ⟨s.legacy - other.legacy, s.y2024 - other.y2024, s.y2025 - other.y2025, s.until_⟩ else s

/-- `from_storage_lend`, onchain 932-947. -/
def fromLend (ty : UnitType) (n : Nat) : Slot := ofType ty (UInt32.ofNat n) 4294967295

end Slot

/-- `ONE_YEAR_IN_SECONDS`, onchain 37. -/
def oneYear : UInt32 := 31536000

/-- The unit type and the years of validity of a rental, onchain 979-1018 with the cut-offs at 28-36 and 916-930:
`mainnet` selects the network, `ext` is `StorageExpiryExtension2026`. -/
def rentTerms (mainnet ext : Bool) (ts : Nat) : UnitType × UInt32 :=
  let x : UInt32 := if ext then 1 else 0
  if ts < 1724889600 then (.legacy, 3 + x)
  else if ts < (if mainnet then 1752685200 else 1752426000) then (.y2024, 2 + x)
  else if ts < (if mainnet then 1782147600 else 1781283600) then (.y2025, 1 + x)
  else (.y2025, 1)

/-- `from_event`, onchain 949-1024. -/
def Slot.fromEvent (mainnet ext : Bool) (e : OEvent) : Except HubErr Slot :=
  match e.body with
  | .storageRent units =>
    let r := rentTerms mainnet ext e.ts
    .ok (Slot.ofType r.1 units (UInt32.ofNat e.ts + oneYear * r.2))
  | _ => .error .validation

/-- Merge the slots of a list of rent events. -/
def mergeRents (now : UInt32) (mainnet ext : Bool) (s : Slot) : List OEvent → Except HubErr Slot
  | [] => .ok s
  | e :: es => match Slot.fromEvent mainnet ext e with
    | .error x => .error x
    | .ok r => mergeRents now mainnet ext (s.merge now r) es

/-- `get_storage_slot_for_fid`, onchain 1333-1363, on the stored rents of the user. -/
def slotOf (now : UInt32) (mainnet ext : Bool) (rents pending : List OEvent) (fid : Nat) (lent borrowed : Slot) :
    Except HubErr Slot :=
  match mergeRents now mainnet ext {} (rents ++ pending.filter (fun e => e.fid = fid && e.ty = 4)) with
  | .error x => .error x
  | .ok s => .ok ((s.sub now lent).merge now borrowed)

/-- `get_storage_slot_for_fid` on the database. -/
def slotForFid (now : UInt32) (mainnet ext : Bool) (db : Db OVal) (pending : List OEvent) (fid : Nat) (lent borrowed : Slot) :
    Except HubErr Slot :=
  match onchainEvents db 4 fid with
  | .error x => .error x
  | .ok rents => slotOf now mainnet ext rents pending fid lent borrowed

/-- The loops of `get_lent_storage` and `get_borrowed_storage`,
/repo/src/storage/store/account/storage_lend_store.rs:225-304, on the lends found. -/
def mergeLends (now : UInt32) (lends : List (UnitType × Nat)) : Slot :=
  lends.foldl (fun s l => s.merge now (Slot.fromLend l.1 l.2)) {}

/-- `StoreType`, /repo/src/storage/store/stores.rs. -/
inductive LimitKind where
  | casts | links | reactions | userData | usernameProofs | verifications | lends | none
  deriving DecidableEq, Repr

/-- `Limits::of_type` and `for_store_type`, stores.rs:101-144 and 196-207. -/
def limitOf : UnitType → LimitKind → UInt32
  | .legacy, .casts => 5000 | .legacy, .links => 2500 | .legacy, .reactions => 2500 | .legacy, .userData => 50
  | .legacy, .usernameProofs => 5 | .legacy, .verifications => 25 | .legacy, .lends => 1
  | .y2024, .casts => 2000 | .y2024, .links => 1000 | .y2024, .reactions => 1000 | .y2024, .userData => 50
  | .y2024, .usernameProofs => 5 | .y2024, .verifications => 25 | .y2024, .lends => 1
  | .y2025, .casts => 100 | .y2025, .links => 200 | .y2025, .reactions => 200 | .y2025, .userData => 25
  | .y2025, .usernameProofs => 2 | .y2025, .verifications => 5 | .y2025, .lends => 1
  | _, .none => 0

/-- `StoreLimits::max_messages`, stores.rs:226-238. -/
def maxMessages (s : Slot) (k : LimitKind) : UInt32 :=
  limitOf .y2025 k * s.units .y2025 + limitOf .y2024 k * s.units .y2024 + limitOf .legacy k * s.units .legacy

end Verif
