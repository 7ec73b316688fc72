import Verif.Model.Migrations
import Verif.Spec.Store
/-!
Specification vocabulary for migrations: registered users, databases written before the index of
verifications by address had one row per user, and the calls of a history.
-/
namespace Verif

/-- A user is registered: a registration event of theirs is stored. -/
def Registered (reg : Db OVal) (fid : Nat) : Prop :=
  ∃ e to, reg.get (oPrimaryKey e) = some (.event e) ∧ e.ty = 3 ∧ e.fid = fid ∧ e.body = .idRegister to .register

/-- `r` happened no later on the chain than `e`. -/
def OEvent.noLater (r e : OEvent) : Prop := r.block < e.block ∨ (r.block = e.block ∧ r.log ≤ e.log)

/-- An event of the id registry as the chain emits it: a positive user number below 2^32 - 1 and a 32-bit
position. -/
def OEvent.IdEvent (e : OEvent) : Prop :=
  e.ty = 3 ∧ 0 < e.fid ∧ e.fid < 2 ^ 32 - 1 ∧ e.block < 2 ^ 32 ∧ e.log < 2 ^ 32

/-- The stored events of the id registry: every row is an event under its key, and the first event of a user
is a registration (transfers and recovery changes come after it). -/
structure RegistryOK (reg : Db OVal) : Prop where
  rows : ∀ k v, oTypePrefix 3 <+: k → reg.get k = some v → ∃ e, v = .event e ∧ k = oPrimaryKey e ∧ e.IdEvent
  first : ∀ e, e.IdEvent → reg.get (oPrimaryKey e) = some (.event e) →
    ∃ r to, r.IdEvent ∧ reg.get (oPrimaryKey r) = some (.event r) ∧ r.fid = e.fid ∧
      r.body = .idRegister to .register ∧ r.noLater e

/-- A slot of the old index: the address alone as key, a bare user number as value. -/
def LegacySlot (k : Bytes) (v : SVal) : Prop :=
  ∃ address fid, (address.length = 20 ∨ address.length = 32) ∧ k = 14 :: address ∧ v = .raw (makeFidKey fid)

/-- `db` is `new` with the index of verifications by address as the old code left it: some slots of the old
kind instead of the rows the new code maintains.  Everything else is the same. -/
def OldIndex (db new : Db SVal) : Prop :=
  (∀ k, k.head? ≠ some 14 → db.get k = new.get k) ∧ (∀ k v, k.head? = some 14 → db.get k = some v → LegacySlot k v)

/-- The engine's calls in a history; a crash drops the pending batch. -/
def MigOp.calls : List MigOp → List StoreOp
  | [] => []
  | .live o :: ops => o :: calls ops
  | .crash :: ops => .drop :: calls ops
  | _ :: ops => calls ops

/-- Stored events of the id registry arrive as the chain emits them: not twice, and a user's registration
before the rest. -/
def ChainOK (s : Mig) : MigOp → Prop
  | .chain e => e.IdEvent ∧ s.reg.get (oPrimaryKey e) = none ∧
      ((∃ to, e.body = .idRegister to .register) ∨
        ∃ r to, r.IdEvent ∧ s.reg.get (oPrimaryKey r) = some (.event r) ∧ r.fid = e.fid ∧
          r.body = .idRegister to .register ∧ r.noLater e)
  | _ => True

/-- The same along a history. -/
def ChainRun (ctx : Nat → MergeCtx) : Mig → List MigOp → Prop
  | _, [] => True
  | s, o :: ops => ChainOK s o ∧ ChainRun ctx (s.exec ctx o) ops

/-- Verified addresses have 20 or 32 bytes (C60). -/
def AddressLengths (U : Msg → Prop) : Prop :=
  ∀ m a, U m → m.body = .verificationAdd a → a.length = 20 ∨ a.length = 32

end Verif
