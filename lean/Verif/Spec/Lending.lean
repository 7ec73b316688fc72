import Verif.Model.Lending
import Verif.Spec.Storage
/-!
What lending should respect.
-/
namespace Verif
open Spec

/-- Units of a type the user of a transaction has bought and that have not expired, its own pending rents included. -/
def LendTxn.bought (x : LendTxn) (ty : UnitType) : Nat :=
  purchased x.cfg.mainnet x.cfg.ext x.now.toNat ty (countedRents (x.rents x.fid) x.pending x.fid)

/-- Transactions covered: the rents are proper, the units fit in 32 bits, and the messages are valid lends of the
user, taken from `U`, of at most 5000 units (`validate_lend_storage_body`,
/repo/src/core/validations/message.rs:342-350). -/
structure LendTxn.Proper (U : Msg → Prop) (x : LendTxn) : Prop where
  clock : x.now.toNat < 4294967295
  fid : x.fid < 2 ^ 32
  rents : ∀ e ∈ countedRents (x.rents x.fid) x.pending x.fid, Rental x.cfg.mainnet x.cfg.ext e
  fits : ∀ ty, x.bought ty < 2 ^ 32
  msgs : ∀ m ∈ x.msgs, StoreKind.lends.Valid m ∧ U m ∧ m.fid = x.fid
  size : ∀ m ∈ x.msgs, ∀ to u ty, m.body = .lend to u ty → u ≤ 5000

/-- What each user had bought at its last transaction. -/
def setBought (Q : Nat → UnitType → Nat) (x : LendTxn) : Nat → UnitType → Nat :=
  fun f ty => if f = x.fid then x.bought ty else Q f ty

def lastBought (ops : List LOp) : Nat → UnitType → Nat :=
  ops.foldl (fun Q op => match op with | .txn x => setBought Q x | _ => Q) (fun _ _ => 0)

/-- The histories covered, from a state in which `Q` is what each user had bought at its last transaction and `seen`
are the users with a transaction since the last commit: transactions are proper, a user has one transaction in a
block, what a user has bought does not expire between two transactions, and no merge runs out of event numbers. -/
def LFair (ctx : Nat → MergeCtx) (U : Msg → Prop) : (Nat → UnitType → Nat) → List Nat → StoreState → List LOp → Prop
  | _, _, _, [] => True
  | Q, seen, st, .txn x :: ops =>
    x.Proper U ∧ x.fid ∉ seen ∧ (∀ ty, Q x.fid ty ≤ x.bought ty) ∧
    (∀ y, lTxn ctx st x = .ok y → .error .invalidParameter ∉ y.out) ∧
    LFair ctx U (setBought Q x) (x.fid :: seen) (lExec ctx st (.txn x)) ops
  | Q, seen, st, .block h :: ops => LFair ctx U Q seen (lExec ctx st (.block h)) ops
  | Q, _, st, op :: ops => LFair ctx U Q [] (lExec ctx st op) ops

/-- A history with the reserve in force throughout. -/
def WithReserve (ops : List LOp) : Prop := ∀ x, LOp.txn x ∈ ops → x.cfg.fix = true

end Verif
