import Verif.Model.OnChain
/-!
What the indices over on-chain events should say, in terms of the list of events accepted so far, in the order
they were merged.
-/
namespace Verif.Spec

/-- Numbers fit the fields of an event: 32 bits for user, block and log index; one byte for the type. -/
def OEvent.Fits (e : OEvent) : Prop := e.ty < 255 ∧ e.fid < 2 ^ 32 ∧ e.block < 2 ^ 32 ∧ e.log < 2 ^ 32

/-- Two events of the same type and user at the same block and log index. -/
def SamePlace (a b : OEvent) : Prop := a.ty = b.ty ∧ a.fid = b.fid ∧ a.block = b.block ∧ a.log = b.log

/-- `r` is, among the events of a list that satisfy `sel`, the one with the highest block, and the last one listed
among those of that block. -/
def LatestOf (sel : OEvent → Prop) (log : List OEvent) (r : OEvent) : Prop :=
  ∃ pre post, log = pre ++ r :: post ∧ sel r ∧ (∀ e ∈ pre, sel e → e.block ≤ r.block) ∧
    (∀ e ∈ post, sel e → e.block < r.block)

/-- A registration or transfer of the user's id. -/
def Registers (fid : Nat) (e : OEvent) : Prop :=
  e.fid = fid ∧ ∃ to ty, e.body = .idRegister to ty ∧ ty ≠ .changeRecovery

/-- An event about a signer of a user. -/
def AboutSigner (fid : Nat) (key : Bytes) (e : OEvent) : Prop :=
  e.fid = fid ∧ ∃ kt ty, e.body = .signer key kt ty

/-- An admin reset of a signer. -/
def Resets (fid : Nat) (key : Bytes) (e : OEvent) : Prop :=
  e.fid = fid ∧ ∃ kt, e.body = .signer key kt .adminReset

/-- Events fit their fields in a run. -/
def OpsFit (ops : List ChainOp) : Prop := ∀ e, ChainOp.merge e ∈ ops → OEvent.Fits e

end Verif.Spec
